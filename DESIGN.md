# Formal model of HannesKimara/cddlc in Lean 4 — design

## Trusted base

* Lean 4.33.0's kernel, and the three standard axioms `propext`, `Classical.choice`,
  `Quot.sound`. Every theorem named in `MANIFEST.json` depends on a subset of these three and
  on nothing else; `AXIOMS.txt` lists them theorem by theorem, as printed by `#print axioms`. No axioms of our own,
  no `sorry`, no `native_decide`, no `bv_decide`.
* The reading of the Go code: the model in `lean/Verif/Model/*.lean` is a hand translation;
  each definition cites the Go lines it models. Nothing was executed.
* External code, listed in "What is not modelled".
* The statements of the specifications in `lean/Verif/Spec/*.lean`. They are written from the
  README, the RFC and the token table, and do not call the helpers of the model, except that
  results of the model (a returned tree, a trace of calls) are what they talk about.

## Where things are

| directory | content |
|-----------|---------|
| `Verif/Model` | the code, function by function, with citations |
| `Verif/Spec`  | what the properties talk about: lexical grammar, tilings of a source, trees made of tokens, schemas, files and traces, sessions |
| `Verif/Lemmas`| helper lemmas |
| `Verif/Props` | the property theorems (`Cxx_…`), their refutations and their examples |

| model file | Go files |
|------------|----------|
| `Basic`, `Utf8`, `Strconv` | the parts of `unicode/utf8`, `strconv`, `strings` that are used |
| `Token` | token/token.go, token/position.go |
| `Lexer`, `Slice` | lexer/lexer.go; `Slice` is `NewLexer`'s `append` with its backing array |
| `Ast` | ast/*.go: nodes, `Start`, `End`, socket and plug tests |
| `Env` | environment/environment.go |
| `Parser` | parser/parser.go |
| `Json` | the encoder of encoding/json on trees and configurations |
| `Diag` | parser/diagnostic.go, cmd/cddlc/commands.go (`lex`, `parse`, `errorStringer`) |
| `Walk`, `Print` | ast/astutils/walk.go, print.go |
| `Codegen` | transforms/codegen/golang/*.go |
| `Validators` | runtime/validators/validators.go |
| `Os` | a language of system calls |
| `Config` | config/config.go, the search for it in cmd/cddlc/commands/generate.go |
| `Generate` | cmd/cddlc/commands/generate.go, init.go |
| `Repl` | cmd/cddlc/commands/repl.go |
| `Main` | cmd/cddlc/commands.go: arguments and reading of the file, `doctor`; cmd/cddlc/main.go: exit status |

Not modelled at all: cmd/cddlc/main.go up to line 66 (set-up of the command line library),
transforms/codegen/generator.go (an interface), examples/.

## Shape of the model

* Go strings and byte slices are `List UInt8`; runes are `Int` (−1 is the lexer's EOF).
* A Go call that may panic or not return has result type `Out α = ok a | panic why | hang`.
  Go loops and recursion take fuel; running out gives `hang`. Fuel is *not* a bound on the
  claims: for the lexer we prove that `hang` with the fuel used means `hang` with every fuel
  (so `hang` is real divergence), and for the parser that more fuel never changes a
  non-`hang` result; termination theorems say that `hang` does not occur on clean sources, with
  fuel that depends on the length of the source only. Theorems about a result
  (`parseSource n src = .ok res`) hold for every fuel `n`.
* `Lexer` (state + `next`, `peek`, `scan`, …) is byte-exact, including `utf8.DecodeRune`
  and the stuck behaviour on U+FFFD.
* `Node` is one inductive type for the whole AST, with explicit constructors for a nil
  interface and for a non-nil interface holding a nil pointer; `Start`/`End` are `Out Pos`.
* The parser is written by open recursion: every Go method is one Lean function taking the
  recursive `parseEntry` as a parameter; the knot is tied by fuel.
* Deferred checks (`p.tasks`, Go closures) are a first-order data type with an interpreter.
* Diagnostics are structured messages with a rendering function.
* Visitors of `Walk` are arbitrary: any state, may panic, may return another visitor or nil.
* The generator produces a small model of go/ast (`GoExpr`, `GoDecl`). go.mod says Go 1.21, in
  which all iterations of a loop share one variable; the model of `bundleValidators` follows that
  (`validatorStmts`). `ast.SortImports` resets `File.Imports` in newer versions only; both versions
  are covered (`resets`).
* Commands are trees of system calls (`Prog`). A run (`Traces p t e`) is any sequence of calls with
  *any* answers, cut anywhere (the process may be killed). What calls do to files is a separate
  function (`effects`) that theorems about contents use; paths lead to files by an arbitrary function
  (`at_`, so links are covered), and a failed write leaves any part (`part`) of the text.
* Other processes: `history` interleaves the calls of a run with arbitrary changes by others,
  `Together` interleaves several runs.
* A disk (`Spec/Disk.lean`) is a file system with directories and files, without links, permissions, failures
  and other processes. `Disk.run` runs a command on it; such a run is one of the traces. It serves for theorems
  that say that commands succeed (C86–C88).
* A session of the REPL is the list of lines that its scanner returns.

## Simplifications and what is not modelled

* `unicode.IsLetter`/`IsDigit` above U+00FF: arbitrary predicates (class `Unicode`). Theorems hold for
  any; those marked `NoReplacement` assume that U+FFFD is neither a letter nor a digit, which is so in
  Unicode. Examples use `asciiOnly`.
* float64 rounding: a float literal keeps its exact decimal value; only the overflow test of
  `strconv.ParseFloat` is modelled. `strconv.FormatFloat`, `fmt`'s `%+v`/`%T` of nodes,
  `strcase.ToCamel`, `strings.ToLower` above ASCII, `strings.TrimSpace`, `go/format`, YAML
  and the decoders of configurations: parameters (`GoLib`, `Tool`, `Codec`, `ReplLib`).
* encoding/json: the encoder is modelled for the types of packages ast and config (`Model/Json.lean`, and
  `Config.json` in `Model/Generate.lean`, for configurations without options); of the decoder it is
  assumed in C88, C91 and C92 that it reads the configuration that a text begins with (`Spec.ReadsConfigs`).
  The limit of `Indent` to 10000 levels is modelled; the texts of floating point numbers, whether backspace and form feed are written short (since
  Go 1.22) and what `%+v` prints instead are parameters (`JsonLib`).
* The texts of diagnostics are modelled (`Msg.text`), except for `strconv.Quote` of a number and `%+v` of a
  node, which are parameters. Theorems about printing hold for any texts (one line, where that matters).
* int overflow of offsets, memory exhaustion and Go stack limits (a runaway recursion is
  `hang`), printing to stdout/stderr failing, `log`, `cli` argument handling.
* Files: opening and reading are one call; names from a directory are taken to have no slash; a
  directory whose path has wildcard characters is left to the system's `glob`; a handle opened for
  writing appends at the end of the file at its path, so two *concurrent* `generate` runs are not
  described by `effects` (every theorem about contents is about one run, except for `init`, which does
  append). C102 is about concurrent runs and has a model of its own (`Spec/Concurrent.lean`), in which each
  process has its own position in each file it opened; calls are atomic there, except that `os.MkdirAll` may
  be seen half done.
* The CBOR library that generated code is used with (C117) is not part of the repository. What it writes for a value of a
  Go type is a specification (`Spec.Writes` in `Spec/Data.lean`), from the rules of encoding/json for embedded
  fields and the option `toarray` of github.com/fxamacker/cbor; `int` and `uint` have 64 bits. The meaning of
  schemas (`Spec.Matches`) is a selection from RFC 8610, appendix C.
* The REPL's lines are taken to stay as they are although the scanner reuses its buffer: what the
  parser keeps of them are strings.
* Round trip (C23): `Spec/Schema.lean` can write everything the parser has a handler for; `WF` says which
  nestings of operators are supported (those that the precedences of the parser read as written) and where
  comments may stand.
* Validators: `GoFloat` leaves out the sign of zero.

## Properties that turned out to be false of the code

Each is refuted by a theorem (`Cxx_refuted…`), with a concrete witness, and a `_partial` theorem says what
holds instead.

| id | what happens |
|----|--------------|
| C16 | `ParseFile` panics on `a = # * int`, on `.regexp` of a non-text, on a failing `.bits`, on a name declared twice if its first value is a comparison or range, on a quote at the end of a line |
| C22 | an unterminated string after the second token is not reported; C104: it is read as if its last character were the closing quote |
| C26 | a comment behind a rule swallows the next token; one before a closing bracket, before `*`, or behind an entry and its comma with a `*` after it, changes the parse |
| C27 | `n*m` with an upper bound does not apply it to the next item as written |
| C28 | entries of groups and arrays that are literals or base types are lost |
| C29 | a missing `)` of a tag is not reported |
| C30 | an upper end of a range of another kind is dropped |
| C32 | comparators lose their left operand |
| C45, C62–C68 | generated code is not always valid Go: names that begin with a sign; receivers with `-`; text literals without quotes; undeclared sockets; methods on variables; `nil` and literals as types; a name and a socket of the same name; `self` undeclared |
| C46 | a second `String` repeats (or loses) imports |
| C51 | a failed `generate` empties the previous output |
| C61 | `cddlc parse` fails on trees whose JSON is nested more than 10000 deep |
| C63 | no text literal becomes a Go string |
| C69 | no case conversion is known: `init` fills a local variable |
| C70 | `generate` reports success although printing or writing failed |
| C71 | the configuration is never validated |
| C72 | `generate` panics on a null build, on maps, and on sources without a tree |
| C73 | the default configuration has an empty package |
| C74 | a command line with `*/` ends the header |
| C75 | two `init` at once write the configuration twice |
| C77 | with `:pv` on, an unclosed string crashes the REPL |
| C80 | two entries with the same key, or with keys of the same Go name, give a struct with a field twice |
| C81 | rules that contain themselves give Go types of infinite size |
| C82 | tags carry no names, so a CBOR library uses the Go name (`X` for `x`, the text `IntKey_1` for 1) as key |
| C90 | an unterminated string loses its last byte, so different trees are printed alike |
| C96 | `cddlc parse` exits with 0 whatever the parser reports; only standard error tells |
| C99 | the bracket of a tag need not be closed, and the token behind a comment kept behind a rule is passed over, even a bracket |
| C111 | an identifier that is the upper end of a range with a number below, and is not declared, is reported twice: `a = 1..x` |
| C122 | checks of names are made behind the last rule: of `a = x`, `= 1` on two lines the errors of line 2 are listed first. And `b .. x` has its types compared, at `b`, behind that `x` is not there |
| C125 | a rule behind `a = [ int`, or behind `a` alone, is lost: the open bracket, or the search for `=`, takes its first tokens; and `/ bool` is a mistake alone, none behind `a = int` |
| C126 | `a = [ int` and then `b = int` declares `b` in a session, and not in a file |
| C127 | closing the bracket of `a = [ int` changes whether `b = int` behind it is declared |
| C128 | `b = int` behind `a = [ int` is not declared, and in front of it it is |
| C129 | with `a = [ int` removed, `b = int` behind it is declared, and before it was not |
| C113 | generated files that do not compile: `foo-bar = int` (receiver `foo-bar`), `a = 1` (method on a variable), `a = [valid: int]` (field and method `Valid`), `a = uint .size 4` (no variable `self`) |
| C115 | refused though in RFC 8610: `a = {"x": tstr}`, `a = {text: tstr}`, `a = bytes .size 4`, `a = any`, `a = [int * tstr]`, `a = b b /= int`; accepted though not in it: `a = int,`, `a = tstr ..` |
| C117 | `a = int` (2^63 has no value), `a = bytes` (nil is written as null), `a = uint .size 1` (any number is written), `a = [? x: tstr]` (never left out), `a = [b] b = [x: tstr]` (the inner array is spliced), `a = [p, q] p = (x: tstr) q = (x: tstr)` (both fields are left out) |
| C93 | a control or range takes all that follows as its right operand, also behind `/`: `tstr .size 3 / int` is `tstr .size (3 / int)`, without an error |
| C85 | `End` is wrong for `bstr`, `nil`, `float16/32/64`, `true`, `false`, floating-point numbers, strings and integers not in plain decimal; it is offset -1 for empty lists, leaves out closing brackets and panics on `* int`, `1.."x"` and tags without a type; `Start` panics on comparisons |

Also found: `NewLexer` overwrites the byte after the source if the slice has spare capacity (C11);
a malformed byte makes the lexer return the same token for ever, so that `ParseFile` does not return a
tree (C02); a string cut off by the end of the input loses its last byte (C06); a `.size` check compares
the size of the Go type, not the length of the value (C48); all but the last validator of a `Valid` method
are lost, and it always returns nil (C41, C42); four messages of the parser can never be given (C84);
an output named `cddlc.…` in the working directory is taken for a configuration file by the next run (C87), and
`init` hides a `cddlc.yaml` (C88); `any`, `.default`, `.cbor`, `.and` and others are scanned but never accepted (C100);
a rule that follows a line with a comment behind the rule is lost: `a = int ; x` and then `b = int` gives two errors and no `b` (C106).

## How each property is proved

| id | what is modelled | how it is proved |
|----|------------------|------------------|
| C01, C03, C09, C10, C13 | `Lexer.scan` | invariant "rest of the source is an encoded list of characters" + case analysis of `scan`; induction on the remaining characters |
| C02 | same, bad source | invariant: read offset never passes the first undecodable position |
| C04–C07 | same | invariant on `offset`, `lineOffsets`; spec functions `lineAt`, `colAt` on the raw bytes |
| C08 | token table | finite table by kernel computation, lifted by a lemma on `find?` |
| C11 | slice = backing array + offset/len/cap | direct |
| C12, C97 | `scan` on rendered tokens | one lemma per token class, induction on the list |
| C14 | association list | refinement to `name → Option node`, induction on operations |
| C15 | parser | measure = unread characters + unread current/peek tokens; open-recursion spec |
| C16 | parser | refutations by computation; fragment theorem by invariant on tokens |
| C17–C21, C34, C56, C57, C59 | `parseRule`, `ParseFile` | post-conditions by open-recursion induction (`Reach`, `FileRun`) |
| C22, C26, C27, C29, C30, C93 | parser | refutation witnesses, plus positive partial theorems |
| C23–C32 | lexer + parser | a surface syntax with its texts and trees; derivations (`Der`) of the parser; induction on syntax |
| C98, C99, C100 | `parseFile` | induction on the derivation of a run without diagnostics gives a derivation in `Spec.Sentence`; the other two by induction on that; `C99_exceptions_partial` says what is left when the passed-over brackets are removed (`Spec.Without`) |
| C101 | `parseFile`, `scan` | relation between two runs whose parsers differ only in the lexer (`Rel`, `Twins` in `Lemmas/Prefix`): after every function of the parser either the first run has read past the common tokens or the second has returned the same; for lines, `Spec.lexeme` does not look behind the end of a line |
| C102 | `generateCmd` | invariant over all interleavings (`Inv` in `Lemmas/Concurrent`): what each process still has to do to the outputs does not depend on the others (`Does`); for each output either some process has yet to empty it, or one process has written the beginning up to its position and the others write the same bytes at the same places |
| C103, C104 | lexer, parser | the `Twins` of C101 without a point where they part (`followTwins`): a lexer that returns all tokens of another gives the same run; for C104 the two texts are scanned side by side (`BeforeStr`, then `Level`) |
| C105 | parser | C78's simulation is run up to a renaming (`Sim ρ`); C78 is the case `ρ = id` (`renamed_id`, `toks_id`) |
| C106, C107 | parser, REPL | the run on the first source is followed by a twin whose lexer goes on into the second (`joinTwins`); the run on the second is C78's simulation at a later position (`S_loop`), and a run over other bindings and tasks differs from it by the frame only (`frameTwins`); `join_source` puts these together; `C106_session` is an induction over the lines |
| C108 | lexer, parser | every lexeme is the same with a line break behind the text (`lexeme_end`); then C78's simulation |
| C109 | parser, generator | every step of the generator only adds imports and declarations, the same in every state (`Framed`); then C106 and C107 |
| C118 | parser, generator | the joins of C106 and C107 twice, with parts that report only through the checks at the end (`Quiet`); the names of all checks stand in the source, so a check sees no difference if two environments agree on these names (`runTask_agree`) |
| C119 | parser, generator, generate | C112, C39 and C86 put together, with the comments of the declarations and the imports (`GoDecls`, `goFile`); what is left of the model in the statement is the lexer (`Scans`), the texts of the system calls and the parameters of `Tool` |
| C120 | generate on a `Disk` | every call of the command keeps what may change (`GrownDisk`); a run that succeeds does the jobs of the sources in turn (`Did`), and since files named `.cddl` are never made, the sources it finds are those that were there before |
| C121 | a tree and the tokens of its source | `places` reads a tree from left to right; `Spelt l p ws q`: the tokens read from `p` to `q` hold the places `ws` as a sublist. Composition of such stretches gives every case of `Der`; C13 turns the order of tokens into offsets |
| C122 | `parseFile` | the same token numbers as for C111: `Listed` adds that the numbers of tasks rise, within and between the stretches of tokens |
| C123 | a tree and the tokens of its source | `Weighs l p k q`: at least `k` tokens were read from `p` to `q` (a `Spelt` of C121, of which only the length counts); every case of `Der` adds no more nodes than tokens |
| C124 | the parser and the parser with a note of every call of `parseEntry` | the relation of two parsers of C101 (`Twins`, `Lemmas/Twins.lean`), now between two functions `parseEntry`, shows that the notes change nothing; `Fare p c q`: from `p` to `q` at least `c` more tokens were left behind than notes made. Every call is paid by the token in front of it, and the diagnostic of a rule by its name or its sign |
| C125 | `Finished` (`Spec/Recover.lean`): no diagnostic says that the end of the file was found in place of an entry, or is about a name that is the last token; `Opens`: what the second source begins with | the two runs of C107, now with rules that fail: a rule whose diagnostic is not about the end reads no further with text behind it than without (`rule_stays`), as the parser at the end of the file can fail only with such a diagnostic (`Fair`, `Lemmas/Work.lean`) |
| C126 | `Entered` of C58: results of parsing one source after the other; `LateKind`: what the checks behind the last rule report | induction from the last source: the file of the others is the second source of C125, read with the names of the first, so that no name is new to one run only and names declared twice are reported in both |
| C127 | `Parts`: a list of texts with the result of parsing each alone; `NamesApart` | induction over the parts: C125 joins the first with the file of the others, and the names of each being apart no diagnostic of a declared name differs |
| C128 | `Parts` of C127; `List.Perm` | the rules, diagnostics and delayed checks of a file are those of the parts one behind the other (C127), and the checks are run with names that are bound to the same in both orders |
| C129 | `Parts` of C127; `List.Sublist` | some of the parts are parts again; the rules, diagnostics and delayed checks are a sublist, and names are bound to the same or lost with the parts |
| C110 | `parseFile` | every parse function leaves behind one token for each task and diagnostic it makes (`Credit`, an amortised count) |
| C111 | `parseFile` | every diagnostic and task belongs to a token number inside the stretch of tokens its parse function read (`Told`), so keys of different stretches differ; C13 makes positions of different tokens differ |
| C26 (`C26_removed_partial`) | `parseFile` | induction on the derivation of C112 removes the comments from it (`uncomment_rules`), a second one carries it to tokens at other positions (`respell_rules`); C112 read backwards accepts the second source |
| C26 (`C26_added_partial`), C115 (`C115_commented_partial`) | `parseFile` | the tokens are seen as tokens with the comments in front of each (`deco`); induction on the derivation of C112 puts the comments into it, with a count of brackets to find the field that ends in front of a closing one (`insert`, `insert_rules`); comments that follow each other stand on different lines by the lexer (`comment_lines`) |
| C112 | `parseFile` | soundness by a specification of every parse function (`LC`: a result without error has a derivation for the tokens it read), completeness by running the parser along the derivation (`lang_runs`), both with the list of checks; comments are part of the grammar (`noted`, `skip`, `Behind`, `Rules.comments`); EOF implies a clean source, so lexical errors need no hypothesis |
| C113 | `Visit`, `String` | C39 gives the declarations, C44 the imports; each demand of the compiler (Spec/Compile.lean) is translated to the schema and back, with C80 for fields, C81 for recursion, C17 and C19 for names that are used, C59 for the numbers of size controls |
| C114, C16 (`C16_grammatical_partial`) | `parseFile`, `declare` | the two inductions of C112 once more, with a list of what has been declared (`Binds`); `lang_start` says which types of the grammar have no start |
| C115 | `parseFile` | the grammar of RFC 8610 is one inductive definition with a switch for the conditions (Spec/Rfc.lean); `rfc_meaning` shows by induction that each sentence is an entry of the grammar of C112 whatever may follow it (`Cont`), and C112 does the rest |
| C116 | `doctorCmd` | the output is cut at line breaks and each line at its first colon by a reader of its own (Spec/Doctor.lean) |
| C117 | `Visit`, `String` | C39 gives the declaration of each rule; the fields reached through embedded structs are the entries of the array with those of its groups (`reaches_fills`), pairwise different names make all of them written (`array_written`); then induction on what matches (`complete`) and on what is written (`sound`) |
| C33, C60, C61, C95, C96 | parser + `errorStringer`, commands, exit status | all positions are those of tokens, which are exact; the runs of a command are its system calls with any answers |
| C94 | parser | induction over derivations, counting the tokens read; no EOF is among them |
| C89, C90 | encoder | the grammar of RFC 8259 as a relation, which is unambiguous; a reader by member names; induction on trees, with C59 |
| C35–C37 | `Walk` with an arbitrary visitor | mutual induction on trees against a trace spec |
| C38 | printer | induction |
| C39–C46, C62–C69 | generator | mutual induction against a relation between trees and Go types |
| C47, C48 | validators | direct (`CheckSize` over a value model with dynamic type) |
| C49, C54 | config | induction over lists, all answers of the system |
| C50–C52, C70–C74 | generate command | induction over builds and files, all traces |
| C86–C88 | generate and init on a disk | what a run leaves alone (`Frame`) as invariant; the disk after a run in closed form (`puts`) |
| C53, C75, C92 | init with other processes | all traces, all interleavings |
| C91 | encoder on configurations | as C89, with a relation between JSON values and configurations |
| C55 | `Position.To` | direct |
| C78, C79 | lexer + parser + generator | a lockstep relation between two runs (`Sim`: same tokens up to position), one lemma per function |
| C80–C82 | generator | what Go requires of struct types, tags and recursive types as a specification; induction over entries |
| C83 | schemas + generator | permutations of rules; the generator works rule by rule |
| C84 | parser, `errorStringer` | one predicate per message (`Tells`); the spelling of keywords and numbers on every source; post-conditions by open recursion |
| C85 | `Start` and `End` methods on parsed trees | one-token nodes against the texts of tokens (C06); panics by induction on derivations |
| C58, C76, C77 | REPL | induction over the lines; invariant of the environment |

## The project's own tests

`Verif/Tests` runs the tests of the project in the model: `TestIdentifers` and `TestNumbers` of lexer_test.go,
all of parser_test.go (with more of the trees compared than there, and the texts of the two diagnostics), the
14 files of testdata/language (`TestE2EFast`), and environment_test.go. They are samples; they show that the
model does what the authors of the code say it does, and no claim rests on them. `TestLexerFuzz` is C97, for
all sequences of tokens.

## Mutation tests

`seeded/LOG.jsonl` records, for edits of the model like a realistic bug, which theorems no longer prove.
They were run in a scratch copy; a theorem counts as failed if its name is missing or depends on `sorryAx`
after the edit.
