{"id": "C01", "title": "Scanning a clean source always reaches EOF", "statement": "For a source that is valid UTF-8 and contains no U+FFFD and in which no scan panics, calling Scan repeatedly returns each time and yields the EOF token after at most len(source)+1 calls.", "quantifier": "every valid UTF-8 byte string without U+FFFD, of any length", "why_tests_cant": "termination over an unbounded set of inputs; a hang shows only on the input that triggers it", "anchors": ["lexer/lexer.go:Scan", "lexer/lexer.go:next", "lexer/lexer.go:skipWhitespace"]}
{"id": "C02", "title": "A malformed source never yields EOF", "statement": "If the source is not valid UTF-8, or contains U+FFFD, then no number of Scan calls ever returns the EOF token: some call does not return, some call panics, or non-EOF tokens are returned for ever. Consequently ParseFile never returns a tree for such a source (it can return (nil, nil) when one of the first two tokens is an unterminated string).", "quantifier": "every byte string that is malformed UTF-8 or contains U+FFFD, every number of Scan calls", "why_tests_cant": "non-termination cannot be observed by a test and must hold for every malformed input", "anchors": ["lexer/lexer.go:next", "lexer/lexer.go:Scan", "parser/parser.go:ParseFile"]}
{"id": "C03", "title": "EOF is absorbing", "statement": "Once Scan has returned EOF every later Scan returns EOF again, with an empty literal and the same position, and records no error.", "quantifier": "every source and every number of further calls", "why_tests_cant": "infinitely many further calls", "anchors": ["lexer/lexer.go:Scan", "lexer/lexer.go:next"]}
{"id": "C04", "title": "Token positions are exact", "statement": "Every token Scan returns, on any source, has an Offset inside the source, Line equal to one plus the number of newline bytes before that offset, and Column equal to the distance from the last newline before it (or from one before the start of the file). On a clean source the offset is that of the token's first byte; on a malformed one it need not be (refuted with a witness).", "quantifier": "every source, every token in it", "why_tests_cant": "positions depend on the whole prefix of the source; tests fix a few one-line inputs", "anchors": ["lexer/lexer.go:Scan", "lexer/lexer.go:addLineOffset", "token/position.go:Position"]}
{"id": "C05", "title": "Lexing is lossless", "statement": "Between the end of one token and the start of the next (and before the first and after the last token) there are only space, tab, CR and LF bytes, and tokens do not overlap: no byte of the source is silently skipped. For every clean source whose scan does not panic, the source is exactly the concatenation of whitespace gaps and raw token texts.", "quantifier": "every valid UTF-8 source without U+FFFD", "why_tests_cant": "a statement about every byte of every input", "anchors": ["lexer/lexer.go:Scan", "lexer/lexer.go:skipWhitespace"]}
{"id": "C06", "title": "A token's literal is its source text", "statement": "For identifiers, numbers, control operators, operators and delimiters the literal equals the source bytes the token covers; for a comment it is the text after the semicolon up to but excluding the newline; for a closed string it is the text strictly between the quotes.", "quantifier": "every clean source and every token", "why_tests_cant": "depends on every possible character sequence, including multi-byte ones", "anchors": ["lexer/lexer.go:scanIdentifier", "lexer/lexer.go:scanNumber", "lexer/lexer.go:scanComment", "lexer/lexer.go:scanString"]}
{"id": "C07", "title": "Identifiers and comments are maximal", "statement": "An identifier token starts with a letter, '@', '_' or '$', consists of identifier characters only and is followed by a byte that is not an identifier character; a comment extends to the end of its line.", "quantifier": "every clean source and every identifier or comment token", "why_tests_cant": "for all inputs", "anchors": ["lexer/lexer.go:scanIdentifier", "lexer/lexer.go:isIdentifierBodyChar", "lexer/lexer.go:scanComment"]}
{"id": "C08", "title": "Keyword classification", "statement": "An identifier-shaped word is returned as a keyword token exactly when it is spelled like that token's String(), and as IDENT otherwise; the keyword table has no two tokens with one spelling, so looking up a keyword token's spelling returns that token.", "quantifier": "every byte string / every token", "why_tests_cant": "a table property over all strings", "anchors": ["token/token.go:Lookup", "token/token.go:init", "token/token.go:String", "lexer/lexer.go:Scan"]}
{"id": "C09", "title": "Exactly when Scan panics", "statement": "On a clean source Scan panics if and only if the next token is a double quote immediately followed by a newline or by the end of the input.", "quantifier": "every clean source and every scan position", "why_tests_cant": "crash freedom over all inputs", "anchors": ["lexer/lexer.go:scanString"]}
{"id": "C10", "title": "Lexer errors are exactly the unterminated strings", "statement": "A Scan call on a clean source records an error exactly when it reads a string literal not closed before a newline or the end of the input; the error carries the offset of that newline or end of input; ErrCount always equals len(Errors); no other scan records or removes errors.", "quantifier": "every clean source, every sequence of Scan calls", "why_tests_cant": "over all histories of calls", "anchors": ["lexer/lexer.go:scanString", "lexer/lexer.go:error"]}
{"id": "C11", "title": "NewLexer leaves the caller's bytes alone", "statement": "NewLexer never changes a byte inside the slice it is given. (It may overwrite one byte of the backing array just past the slice when the slice has spare capacity; this is stated and shown reachable.)", "quantifier": "every slice over every backing array", "why_tests_cant": "needs aliasing over all slice headers", "anchors": ["lexer/lexer.go:NewLexer"]}
{"id": "C12", "title": "Any token sequence survives rendering and scanning", "statement": "Writing any list of token texts (identifiers, keywords, decimal, hexadecimal, octal, binary and fractional numbers, strings, control operators, operators, delimiters and comments) separated by white space and scanning the result returns exactly those tokens with those literals, each at the offset where its text was written, then EOF at the end, without errors.", "quantifier": "every finite list of well-formed token texts", "why_tests_cant": "TestLexerFuzz samples ten random tokens; the claim is for all lists", "anchors": ["lexer/lexer.go:Scan", "lexer/lexer_test.go:TestLexerFuzz"]}
{"id": "C13", "title": "Token offsets strictly increase", "statement": "The offsets of successive non-EOF tokens of a clean source strictly increase and stay inside the source.", "quantifier": "every clean source, every pair of successive tokens", "why_tests_cant": "for all inputs and all positions", "anchors": ["lexer/lexer.go:Scan"]}
{"id": "C14", "title": "Environment is a write-once map", "statement": "Over any sequence of Add calls starting from NewEnvironment: Add succeeds exactly when the name was never added before, a name's value is for ever the first one added, Get of an unknown name is nil, Exists agrees with Get having been bound, and Add of one name never affects another.", "quantifier": "every sequence of operations, every name", "why_tests_cant": "unbounded histories", "anchors": ["environment/environment.go:Add", "environment/environment.go:Exists", "environment/environment.go:Get"]}
{"id": "C15", "title": "ParseFile terminates on clean sources", "statement": "For every valid UTF-8 source without U+FFFD, NewParser followed by ParseFile either returns or panics; it never loops or recurses for ever.", "quantifier": "every clean source, every initial environment", "why_tests_cant": "termination of a recursive parser for all inputs", "anchors": ["parser/parser.go:ParseFile", "parser/parser.go:parseEntry"]}
{"id": "C16", "title": "ParseFile does not crash", "statement": "ParseFile returns normally on every clean source. (Violated: the unchanged code panics on several short inputs, such as 'a = # * int', 'a = uint .bits' and a quote at the end of a line; refuted with witnesses. The proved part: it returns on every clean source in which no quote ends a line, '*' and '+' stand only where an operand must follow or directly behind an operand of one token that is not the number of a tag, .regexp stands only directly behind tstr or text, .bits has as operand a name or type of one token, and either no name is declared twice or there are no comparisons and every range starts with a name or a number.)", "quantifier": "every clean source", "why_tests_cant": "crash freedom for all inputs", "anchors": ["parser/parser.go:parseRegexp", "parser/parser.go:wrapBadNode", "parser/parser.go:parseOccurrence", "parser/parser.go:parseRule"]}
{"id": "C17", "title": "A clean parse has no dangling references", "statement": "If ParseFile returns no errors then every identifier used as a type or value anywhere in the returned tree either starts with '$' or is bound in the environment when ParseFile returns.", "quantifier": "every source, every initial environment", "why_tests_cant": "relates every node of an arbitrary tree with the final symbol table", "anchors": ["parser/parser.go:parseNamedIdentifier", "parser/parser.go:ParseFile"]}
{"id": "C18", "title": "Duplicate declarations are reported and never win", "statement": "If ParseFile returns no errors then the names declared with '=' are pairwise distinct and were not bound before; a name bound before a declaration keeps its binding.", "quantifier": "every source and initial environment", "why_tests_cant": "history over arbitrary many rules", "anchors": ["parser/parser.go:parseRule", "environment/environment.go:Add"]}
{"id": "C19", "title": "Parsing never removes or changes bindings", "statement": "After NewParser(WithEnv(e)) and ParseFile, every name bound in e is bound to the same node as before, whether or not the parse had errors; names newly bound are exactly among the '=' rules returned.", "quantifier": "every source, every environment, every sequence of parses sharing an environment (the REPL)", "why_tests_cant": "unbounded history of parses", "anchors": ["parser/parser.go:WithEnv", "parser/parser.go:parseRule", "cmd/cddlc/commands/repl.go:Repl"]}
{"id": "C20", "title": "The returned error list is the parser's error list", "statement": "ParseFile returns nil errors exactly when no error was recorded, otherwise exactly the list Errors() returns; diagnostics produced while reading rules precede those produced by the deferred reference checks.", "quantifier": "every source", "why_tests_cant": "all inputs", "anchors": ["parser/parser.go:ParseFile", "parser/parser.go:Errors", "parser/diagnostic.go:Collect"]}
{"id": "C21", "title": "A leading unterminated string aborts the parse", "statement": "If one of the first two tokens is an unterminated string (that does not panic), ParseFile returns (nil, nil) and touches nothing.", "quantifier": "every source", "why_tests_cant": "all inputs", "anchors": ["parser/parser.go:ParseFile", "lexer/lexer.go:scanString"]}
{"id": "C22", "title": "Unterminated strings are reported", "statement": "If scanning the source records a lexer error then ParseFile reports a failure. (Violated: only the first two tokens are checked; refuted with a witness.)", "quantifier": "every source", "why_tests_cant": "all inputs", "anchors": ["parser/parser.go:ParseFile"]}
{"id": "C23", "title": "Schemas round-trip through the parser", "statement": "Whatever white space and comments are used to write a schema of the supported fragment, ParseFile returns its rules and comments one by one and in order, each with the tree it stands for (for schemas that avoid the known losses: exactly the tree written, with each comment behind an entry or its comma kept as the comment of that entry), and its errors are exactly one per repeated declaration and one per failed check of a name (undeclared reference, wrong kind of range end).", "quantifier": "every schema of the fragment: any number of rules, any nesting depth", "why_tests_cant": "full functional correctness over unbounded trees", "anchors": ["parser/parser.go:ParseFile", "parser/parser.go:parseEntry", "lexer/lexer.go:Scan"]}
{"id": "C24", "title": "Integer literals keep their value", "statement": "The decimal, hexadecimal, octal and binary spelling of every natural number below 2^63 is parsed to exactly that number; the spelling of a larger number as the value of a rule is rejected with an error and leaves no value, it is never wrapped.", "quantifier": "every natural number", "why_tests_cant": "all 2^63 values and all larger ones", "anchors": ["parser/parser.go:parseIntegerLiteral", "parser/parser.go:parseUintLiteral"]}
{"id": "C25", "title": "Type choices keep every alternative in order", "statement": "'t1 / t2 / ... / tn' parses to a right-nested choice whose alternatives read left to right are exactly t1 ... tn.", "quantifier": "every n and every list of operands", "why_tests_cant": "unbounded chain length", "anchors": ["parser/parser.go:parseTypeChoice", "parser/parser.go:parseGroupChoice", "parser/parser.go:parseEntry"]}
{"id": "C26", "title": "Comments do not change the parse", "statement": "Removing comments from a source does not change the rules parsed, nor does adding them. (Violated by a trailing rule comment, which swallows the next token, by comments before closing brackets and by a comment behind an entry and its comma when an occurrence follows; refuted with witnesses. Proved part, removing: for every accepted source, of any shape, in which the comments stand between tokens that are read alike with and without them - no operator, second comma, upper bound or part of a tag behind the comment -, in which nothing stands behind the comment of a rule and in which parentheses are closed, every source with the same tokens but the comments is accepted with the same rules. Proved part, adding: if a source without comments is accepted, so is every source with the same tokens and comments in front of rules, entries and operands, behind entries and rules and, one on the line of the last field, before a closing bracket; the rules are the same.)", "quantifier": "every source, every comment placement", "why_tests_cant": "all placements", "anchors": ["parser/parser.go:parseRule", "parser/parser.go:parseColon", "parser/parser.go:parseComment"]}
{"id": "C27", "title": "Occurrence bounds apply to the following item", "statement": "'n*m t' yields an occurrence with lower bound n, upper bound m and item t. (Violated when m is given: the item becomes the literal m; refuted. Proved for '*', '+', 'n*' and 'n+'.)", "quantifier": "all n, m and items", "why_tests_cant": "all inputs", "anchors": ["parser/parser.go:parseOccurrence"]}
{"id": "C28", "title": "Group and array entries survive", "statement": "Each entry of a group or array is present in the parsed node, in order. (Violated: entries that are not of a group-entry kind, such as plain types, are dropped; refuted. Proved: the kept entries are exactly those of group-entry kind, in order.)", "quantifier": "every list of entries", "why_tests_cant": "unbounded lists", "anchors": ["parser/parser.go:parseGroup", "parser/parser.go:parseArray", "ast/group.go:GroupEntry"]}
{"id": "C29", "title": "Tags", "statement": "'#', '#M', '#M.N', and '#M.N(t)' parse to a tag with exactly that major, number and item. A missing closing parenthesis is reported (violated, refuted).", "quantifier": "every M, N and item", "why_tests_cant": "all values", "anchors": ["parser/parser.go:parseTag", "parser/parser.go:parseFloatTag", "parser/parser.go:expectPeek"]}
{"id": "C30", "title": "Range bounds", "statement": "'a..b' and 'a...b' keep both bounds for integer literals, float literals and identifiers, and an integer range with a float bound (or the reverse) is rejected. An upper bound of any other kind is never silently dropped (violated, refuted).", "quantifier": "every pair of bounds", "why_tests_cant": "all values", "anchors": ["parser/parser.go:parseBound", "parser/parser.go:parseIntBound", "parser/parser.go:parseFloatBound", "parser/parser.go:parseIdentBound"]}
{"id": "C31", "title": ".size only applies to tstr, bstr and uint", "statement": "An error-free parse never contains a size control whose base is anything but tstr/text, bstr or uint, and 'b .size n' keeps both operands.", "quantifier": "every source", "why_tests_cant": "all inputs", "anchors": ["parser/parser.go:parseSizeOperator"]}
{"id": "C32", "title": "Comparators keep their left operand", "statement": "'t .lt n' yields a comparison whose left operand is t. (Violated: the left operand is always a nil pointer; proved for every successful comparison.)", "quantifier": "every operand", "why_tests_cant": "all inputs", "anchors": ["parser/parser.go:parseComparatorOp"]}
{"id": "C33", "title": "Every diagnostic points into the source", "statement": "Each diagnostic ParseFile returns on a clean source has a start line between 1 and the number of lines of the source, so the command-line renderer prints exactly one block per diagnostic and never indexes out of range.", "quantifier": "every clean source and every diagnostic", "why_tests_cant": "all inputs, and all error paths of the parser", "anchors": ["parser/parser.go:error", "cmd/cddlc/commands/generate.go:errorStringer", "cmd/cddlc/commands.go:errorStringer"]}
{"id": "C34", "title": "Only '=' declares", "statement": "A rule written with /= or //= never binds its name, so referring to a name only defined that way (without a leading '$') is always reported as undeclared.", "quantifier": "every source", "why_tests_cant": "all inputs", "anchors": ["parser/parser.go:parseRule"]}
{"id": "C35", "title": "Walk visits in pre-order, balanced", "statement": "On a tree made of supported kinds, Walk with a visitor that always continues visits every node exactly once, parents before children, children left to right, and calls Visit(nil) once after each node's children.", "quantifier": "every tree, every visitor", "why_tests_cant": "unbounded trees", "anchors": ["ast/astutils/walk.go:Walk"]}
{"id": "C36", "title": "Walk prunes exactly where Visit returns nil", "statement": "If Visit returns nil for a node, none of that node's descendants are visited and no closing Visit(nil) is made for it; everything else is visited as usual.", "quantifier": "every tree and every visitor decision function", "why_tests_cant": "all trees and visitors", "anchors": ["ast/astutils/walk.go:Walk"]}
{"id": "C37", "title": "Walk panics exactly on unsupported kinds", "statement": "Walk panics iff it gets to a node on which the visitor continues and which it does not handle (boolean literal, uint type, comment group, bits control, enumeration, bad node, a nil list element or a nil pointer). On a parsed file, with a visitor that always continues, it panics iff the file contains one of the first five.", "quantifier": "every tree", "why_tests_cant": "unbounded trees", "anchors": ["ast/astutils/walk.go:Walk"]}
{"id": "C38", "title": "The tree printer restores its indentation", "statement": "Formatting a node leaves the printer's nesting level as it found it; the text printed for a node is the same at every level except for tab characters; and Format panics iff it gets to a nil pointer of a kind it prints with its fields. On the environment and the tree of a parsed file it never panics.", "quantifier": "every tree, every starting level", "why_tests_cant": "unbounded trees", "anchors": ["ast/astutils/print.go:format"]}
{"id": "C39", "title": "Generated declarations mirror the rules", "statement": "Visiting a parsed file appends, for each rule in order, one declaration with the rule's translated name followed by one Valid method on that name, and nothing for comments.", "quantifier": "every list of rules on which generation does not panic", "why_tests_cant": "unbounded lists", "anchors": ["transforms/codegen/golang/gen_grouped.go:Visit", "transforms/codegen/golang/gen_grouped.go:bundleValidators"]}
{"id": "C40", "title": "Exactly which trees can be generated", "statement": "Generation of a rule's value panics iff the value lies outside an explicitly described fragment.", "quantifier": "every tree", "why_tests_cant": "unbounded trees", "anchors": ["transforms/codegen/golang/gen_grouped.go:transpileNode", "transforms/codegen/golang/gen_grouped.go:transpileGroupLike", "transforms/codegen/golang/gen_operator.go"]}
{"id": "C41", "title": "Generated Valid methods always return nil", "statement": "Whatever the schema, every generated Valid method discards the results of its checks and returns nil, so it accepts every value.", "quantifier": "every schema", "why_tests_cant": "for all schemas", "anchors": ["transforms/codegen/golang/gen_grouped.go:bundleValidators"]}
{"id": "C42", "title": "At most one check per Valid method", "statement": "No rule ever yields more than one validator call, and it yields one exactly when its value is a size control at top level; size controls nested in groups and arrays yield none. Hence taking the loop variable's address is harmless.", "quantifier": "every tree", "why_tests_cant": "unbounded trees", "anchors": ["transforms/codegen/golang/gen.go:Embed", "transforms/codegen/golang/gen_grouped.go:transpileGroupLike"]}
{"id": "C43", "title": "Struct fields follow entries", "statement": "A generated struct has one field per group entry, in order, arrays having one additional leading toarray marker; a field carries the omitempty tag exactly when its entry is optional.", "quantifier": "every entry list", "why_tests_cant": "unbounded lists", "anchors": ["transforms/codegen/golang/gen_grouped.go:transpileGroupLike", "transforms/codegen/golang/gen_grouped.go:transpileArray"]}
{"id": "C44", "title": "Imports are counted per size control", "statement": "The number of imports recorded equals the number of size controls translated, so a schema without size controls has no import and one with two imports the package twice.", "quantifier": "every schema", "why_tests_cant": "unbounded trees", "anchors": ["transforms/codegen/golang/gen.go:addImport", "transforms/codegen/golang/gen_operator.go:transformSizeOp"]}
{"id": "C45", "title": "Generated names are valid Go identifiers", "statement": "Translating a name returns a valid Go identifier (possibly prefixed IntKey_) or panics; it never returns an invalid one, and distinct names get distinct Go names. (Violated: the name $-1 becomes IntKey_-1, and $a and $$a both become a; refuted. Proved: the result is an identifier unless what is left of the name begins with a sign.)", "quantifier": "every name and every case converter", "why_tests_cant": "all strings", "anchors": ["transforms/codegen/golang/gen_identifiers.go:transpileIdentifier"]}
{"id": "C46", "title": "String is repeatable", "statement": "Calling String twice writes the same file twice. (Violated when there are imports: each call prepends another import block; refuted. Proved: without imports String changes nothing.)", "quantifier": "every generator state", "why_tests_cant": "all states", "anchors": ["transforms/codegen/golang/gen.go:String"]}
{"id": "C47", "title": "Range validators decide the interval", "statement": "InInclusiveRange, InExclusiveRange, IsLessThan and IsGreaterThan return true exactly on the mathematical closed interval, open interval and half-lines; the exclusive range is contained in the inclusive one.", "quantifier": "all integers", "why_tests_cant": "infinitely many values", "anchors": ["runtime/validators/validators.go"]}
{"id": "C48", "title": "CheckSize ignores the value", "statement": "CheckSize depends only on the dynamic type of its argument, never on its content, so a text or byte string of any length gets the same verdict.", "quantifier": "all values", "why_tests_cant": "all values", "anchors": ["runtime/validators/validators.go:CheckSize"]}
{"id": "C49", "title": "Which configuration file is used", "statement": "loadConfigFromDir fails with 'no configuration' iff no directory entry matches cddlc.*; otherwise it loads the lexicographically first match and fails if that is neither cddlc.json nor cddlc.yaml, even if one of those exists.", "quantifier": "every directory listing", "why_tests_cant": "all listings", "anchors": ["cmd/cddlc/commands/generate.go:loadConfigFromDir", "config/config.go:LoadConfig"]}
{"id": "C50", "title": "Generate only writes .go files in the output directory", "statement": "For every file system, configuration and outcome, the generate command changes no file except dir/name.go for .cddl sources name.cddl; in particular it never modifies a source.", "quantifier": "every file system content, every configuration, every point of failure", "why_tests_cant": "all file systems and failure points", "anchors": ["cmd/cddlc/commands/generate.go:GenerateCmd", "cmd/cddlc/commands/generate.go:generateFile"]}
{"id": "C51", "title": "A failed generate keeps the previous output", "statement": "If generating a file fails, its earlier output is left as it was. (Violated: the output is truncated before parsing; refuted. Proved: a read failure leaves it untouched, and a parse failure always leaves it empty.)", "quantifier": "every file system and source", "why_tests_cant": "all failure points", "anchors": ["cmd/cddlc/commands/generate.go:generateFile"]}
{"id": "C52", "title": "Generate stops at the first failure", "statement": "Files are processed in directory order, every file before the first failing one has its output, and no file after it is touched.", "quantifier": "every directory and failure point", "why_tests_cant": "all histories", "anchors": ["cmd/cddlc/commands/generate.go:GenerateCmd"]}
{"id": "C53", "title": "Init never destroys an existing configuration", "statement": "Whatever other processes do between its check and its write, init never removes or changes bytes already in cddlc.json: the old content is always a prefix of the new. If the file existed at the check nothing is written. When any number of init run together and no write fails, the file holds what it held before and then the text some number of times, at least once if one of them succeeded.", "quantifier": "every interleaving with other writers, including another init", "why_tests_cant": "all schedules", "anchors": ["cmd/cddlc/commands/init.go:getFileHandle", "cmd/cddlc/commands/init.go:InitCmd"]}
{"id": "C54", "title": "Config.Valid reports the first bad plugin", "statement": "Valid returns nil iff every plugin's local path is an existing directory, otherwise the error of the first plugin failing.", "quantifier": "every plugin list and file system", "why_tests_cant": "unbounded lists", "anchors": ["config/config.go:Valid"]}
{"id": "C55", "title": "Position arithmetic", "statement": "Moving a position by a then b equals moving by a+b; it never changes file or line.", "quantifier": "all positions and offsets", "why_tests_cant": "all values", "anchors": ["token/position.go:To"]}
{"id": "C56", "title": "A second ParseFile re-reports", "statement": "Calling ParseFile again on the same parser returns an empty tree and the diagnostics of the first call followed by those of the deferred checks once more; if the lexer recorded an error during the first call, the second returns (nil, nil).", "quantifier": "every source", "why_tests_cant": "all inputs", "anchors": ["parser/parser.go:ParseFile"]}
{"id": "C57", "title": "Rules are returned in source order", "statement": "The rules of an error-free parse have strictly increasing start offsets.", "quantifier": "every clean source", "why_tests_cant": "all inputs", "anchors": ["parser/parser.go:ParseFile"]}
{"id": "C58", "title": "REPL session state", "statement": "Over any session, the lines up to the first :exit count; the verbose flag is the parity of :pv lines among them, the REPL ends with success exactly if there is an :exit, and the environment maps each name to the first declaration entered and holds no name that was not declared.", "quantifier": "every sequence of input lines", "why_tests_cant": "unbounded sessions", "anchors": ["cmd/cddlc/commands/repl.go:Repl"]}
{"id": "C59", "title": "The tree invents nothing: every node is made of source tokens", "statement": "Whatever ParseFile returns, every top-level element is a comment token of the source or a rule whose name is an identifier token immediately followed by one of the three assignment tokens, every comment behind a rule or entry is a comment token, and every node below a rule's value carries the position, kind and spelling of a token of the source (numbers: the value of its spelling; operators: the position of the operator token).", "quantifier": "for all sources, environments, returned trees and nodes in them", "why_tests_cant": "A test compares a few trees; it cannot exclude that some input makes the parser attach a literal to a stale or unrelated token.", "anchors": ["parser/parser.go:parseNamedIdentifier", "parser/parser.go:ParseFile"]}
{"id": "C60", "title": "cddlc lex lists every token and fails exactly on illegal ones", "statement": "'cddlc lex' prints one line per token up to and including the first EOF, returns an error exactly if an ILLEGAL token is among them, and the error gives their number. On a clean source on which Scan never panics it returns.", "quantifier": "for every source", "why_tests_cant": "Tests run the command on a few files; the claim is about every source and every number of tokens.", "anchors": ["cmd/cddlc/commands.go:38-65"]}
{"id": "C61", "title": "cddlc parse succeeds whatever the parser reports", "statement": "Whenever ParseFile returns, 'cddlc parse' prints the tree and exactly one block per diagnostic, in order, and returns no error, so its exit status is zero even if the schema has errors. (Violated by trees whose JSON is nested more than 10000 deep, for which encoding/json gives up: it then prints the tree with %+v and fails, without a diagnostic. Proved: it fails exactly then, and never for trees at most 4998 nodes high, nor for sources of at most 4998 tokens or bytes.)", "quantifier": "for every source and message text", "why_tests_cant": "That no source and no list of diagnostics leads to an error status or an index out of range is a statement about all of them.", "anchors": ["cmd/cddlc/commands.go:67-97", "cmd/cddlc/commands.go:108-126"]}
{"id": "C62", "title": "Receivers of generated methods are Go identifiers", "statement": "The receiver name of every generated method is a valid Go identifier. (Violated: it is the CDDL name in small letters, e.g. foo-bar or type; refuted. Proved: for ASCII names it is an identifier exactly if the name consists of letters, digits and underscores, does not begin with a digit and is no keyword in small letters.)", "quantifier": "every source that is generated", "why_tests_cant": "Names are unbounded; the set for which the output compiles is a characterisation over all names.", "anchors": ["transforms/codegen/golang/gen_grouped.go:76-99"]}
{"id": "C63", "title": "Text literals become Go string literals", "statement": "A rule whose value is a text literal generates a variable whose value is a Go string literal meaning that text. (Violated for every text: the text is written without quotes, so that it is read as Go code; refuted for all sources.)", "quantifier": "every text literal of every source", "why_tests_cant": "A test shows one text; the claim that no text at all is written correctly, whatever escapes or quotes it contains, needs an argument over all texts.", "anchors": ["transforms/codegen/golang/gen_literals.go:25-30", "transforms/codegen/golang/gen_grouped.go:32-40"]}
{"id": "C64", "title": "Generated code refers only to declared names", "statement": "Every identifier used as a type or value in a generated declaration is predeclared in Go or declared in the same file. (Violated by undeclared sockets such as $b, which the parser accepts; refuted. Proved: those are the only exception.)", "quantifier": "every source parsed without diagnostics and generated", "why_tests_cant": "Relates all references of all sources, through the parser's reference check and the name translation, to the declarations.", "anchors": ["transforms/codegen/golang/gen_grouped.go:14-74", "transforms/codegen/golang/gen_identifiers.go:18-37", "parser/parser.go"]}
{"id": "C65", "title": "Methods are declared on types", "statement": "The receiver type of every generated method is declared as a type in the file. (Violated by rules with literal values, which become variables; refuted. Proved: it is a type exactly for the other rules.)", "quantifier": "every source that is generated", "why_tests_cant": "Over all rules and values.", "anchors": ["transforms/codegen/golang/gen_grouped.go:16-66"]}
{"id": "C66", "title": "Generated types are Go types", "statement": "The right side of every generated type declaration is syntactically a Go type. (Violated by null, by literals in groups and by occurrences directly in groups and arrays, which become embedded slices; refuted. Proved: exactly those violate it.)", "quantifier": "every source that is generated", "why_tests_cant": "An exact characterisation over all trees.", "anchors": ["transforms/codegen/golang/gen_grouped.go:132-225", "transforms/codegen/golang/gen_base_types.go:9-45"]}
{"id": "C67", "title": "Generated files declare each name once", "statement": "No two declarations of a generated file declare the same name. (Violated by /= and //= rules and by sockets and plugs of the same name; refuted. Proved: it holds if all rules are written with = and the name translation does not identify two of their names.)", "quantifier": "every source parsed without diagnostics and generated", "why_tests_cant": "Over all sources and all case converters.", "anchors": ["transforms/codegen/golang/gen_grouped.go:14-74", "parser/parser.go"]}
{"id": "C68", "title": "Generated method bodies use declared identifiers only", "statement": "The body of a generated method uses no identifier that is not declared. (Violated: for a size control it uses self, which is not the receiver; refuted. Proved: exactly the methods of size controls use it, all others use only nil.)", "quantifier": "every source that is generated", "why_tests_cant": "Over all rules.", "anchors": ["transforms/codegen/golang/gen_operator.go:31-46", "transforms/codegen/golang/gen.go:34-53"]}
{"id": "C69", "title": "Options.Valid accepts the known case conversions", "statement": "Options.Valid returns nil for camelcase and snakecase. (Violated: the table it looks at is shadowed in init and stays empty, so every option is rejected; refuted.)", "quantifier": "every value of the option", "why_tests_cant": "Rejecting every string is a statement about all strings.", "anchors": ["transforms/codegen/golang/options.go:13-18", "transforms/codegen/golang/gen_identifiers.go:16,39-44"]}
{"id": "C70", "title": "Success of generate means complete outputs", "statement": "If generate reports success, the output of every source of every build holds the header and the code for that source. (Violated: failure to print or write the code is dropped, and two sources may share an output. Proved: without failed writes each output holds the header and what was printed for the last source that leads to it.)", "quantifier": "every run, answer of the system, configuration and source", "why_tests_cant": "all failure points of all runs", "anchors": ["cmd/cddlc/commands/generate.go:GenerateCmd", "cmd/cddlc/commands/generate.go:generateFile", "pkg/codegen/codegen.go:String"]}
{"id": "C71", "title": "The configuration is validated before it is used", "statement": "Generate does not act on a configuration that Config.Valid rejects. (Violated: Valid is never called; no plugin path is ever looked at.)", "quantifier": "every configuration and run", "why_tests_cant": "all runs: absence of a call", "anchors": ["cmd/cddlc/commands/generate.go:GenerateCmd", "cmd/cddlc/config/config.go:Valid"]}
{"id": "C72", "title": "Generate does not crash", "statement": "For every configuration file and every source, the generate command ends with success or an error, not with a panic. (Violated by a null build and by sources without tree or with maps; proved: these are the only causes, and the configuration is never one otherwise.)", "quantifier": "every configuration, directory and source", "why_tests_cant": "all inputs", "anchors": ["cmd/cddlc/commands/generate.go:GenerateCmd", "cmd/cddlc/commands/generate.go:generateFile"]}
{"id": "C73", "title": "Generated files declare a usable package", "statement": "Every file generate writes declares the package of the build, and that is a Go identifier. (Violated by the default configuration, whose package is empty.)", "quantifier": "every configuration and source", "why_tests_cant": "all configurations", "anchors": ["cmd/cddlc/config/config.go:DefaultBuildConfig", "cmd/cddlc/commands/generate.go:generateFile"]}
{"id": "C74", "title": "The header is a comment", "statement": "The header of a generated file is one Go comment, whatever the command line. (Violated: the command line is copied, and may contain the end of a comment; proved: that is the only case.)", "quantifier": "every command line", "why_tests_cant": "all command lines", "anchors": ["cmd/cddlc/commands/generate.go:addBuildHeader"]}
{"id": "C75", "title": "Init writes exactly the default configuration", "statement": "After a successful init, cddlc.json holds the default configuration and nothing else. (Violated when two init run together: the file is opened for appending after a separate check, and holds the text twice, which is not a JSON document; see C92 for who still reads it. Proved if nobody else changes files meanwhile.)", "quantifier": "every schedule of concurrent runs", "why_tests_cant": "all schedules", "anchors": ["cmd/cddlc/commands/init.go:getFileHandle", "cmd/cddlc/commands/init.go:InitCmd"]}
{"id": "C76", "title": ":tree prints what is bound", "statement": ":tree followed by names prints, for each of them that was declared in the session, its name and its tree, in the order asked for, and nothing for the others; it never panics, leaves the session as it was, and the name is printed as it is although it is used as a format.", "quantifier": "every session and every list of names", "why_tests_cant": "unbounded sessions, all sources", "anchors": ["cmd/cddlc/commands/repl.go:Repl", "ast/astutils/print.go:Print"]}
{"id": "C77", "title": "The REPL does not crash", "statement": "No line entered crashes the REPL. (Violated: with :pv on, a line that starts with an unclosed string dereferences a nil tree; and the parser panics on some lines. Proved: exactly which lines crash it, and that harmless lines never do.)", "quantifier": "every session", "why_tests_cant": "unbounded sessions, all lines", "anchors": ["cmd/cddlc/commands/repl.go:Repl", "cmd/cddlc/commands/repl.go:printcddlShort"]}
{"id": "C78", "title": "Layout does not matter", "statement": "Two texts made of the same tokens, with any white space between them (none where the tokens can touch), are parsed to the same tree, the same diagnostics in the same order and the same bindings up to positions, or fail in the same way; the only line breaks that count are those between a comment and the token before it.", "quantifier": "every pair of texts with the same tokens, malformed ones included", "why_tests_cant": "relates all pairs of texts, of any length", "anchors": ["parser/parser.go:ParseFile", "parser/parser.go:parseEntry", "parser/parser.go:isSameLineTokens", "lexer/lexer.go:Scan"]}
{"id": "C79", "title": "Reformatting does not change the generated code", "statement": "If the sources of a project are laid out anew without changing their tokens or moving a comment to or from the line of the token before it, generate makes the same system calls in the same order, writes the same bytes to the same files and ends in the same way.", "quantifier": "every run of generate, with any answers of the system, and every relayout of the sources it reads", "why_tests_cant": "relates all pairs of runs, over all texts", "anchors": ["cmd/cddlc/commands/generate.go:GenerateCmd", "cmd/cddlc/commands/generate.go:generateFile", "transforms/codegen/golang/gen_grouped.go:Visit"]}
{"id": "C80", "title": "Struct fields have different names", "statement": "No struct of a generated file has two fields with the same name, as the Go compiler demands. (Violated, e.g. by [x: int, x: int] and by keys that differ only in separators; refuted. Proved: it holds for a type exactly if no group or array in its rule has two entries with the same Go name.)", "quantifier": "every source parsed without diagnostics and generated", "why_tests_cant": "over all sources and all case converters", "anchors": ["transforms/codegen/golang/gen_grouped.go:transpileGroupLike", "transforms/codegen/golang/gen_identifiers.go:transpileIdentifier"]}
{"id": "C81", "title": "No generated type contains itself", "statement": "No type of a generated file contains a value of itself, directly or through others (\"invalid recursive type\" of the Go compiler). (Violated by recursive rules such as a binary tree with optional subtrees; refuted. Proved: every rule that is part of itself yields an invalid type, and no others do if the name translation is injective and avoids predeclared names.)", "quantifier": "every source parsed without diagnostics and generated; cycles of any length", "why_tests_cant": "over all sources and cycles of any length", "anchors": ["transforms/codegen/golang/gen_grouped.go:14-74", "transforms/codegen/golang/gen_grouped.go:132-170", "transforms/codegen/golang/gen_grouped.go:206-225"]}
{"id": "C82", "title": "Fields are written under the keys of the schema", "statement": "The map key a CBOR library uses for a generated field is the key of its entry in the schema. (Violated: tags carry no names, so the Go name is used, e.g. X for x and the text IntKey_1 for 1; refuted. Proved: the key is the Go name, and so it is right exactly if the key is its own Go name.)", "quantifier": "every entry and every case converter", "why_tests_cant": "over all keys and converters", "anchors": ["transforms/codegen/golang/gen_grouped.go:132-170", "transforms/codegen/golang/gen_grouped.go:206-225"]}
{"id": "C83", "title": "The order of rules does not matter", "statement": "Whatever the order in which the rules of a supported schema are written, it is accepted or rejected alike, the tree has the same rules, and the generated file consists of the same imports and declarations, up to their order.", "quantifier": "every supported schema, every permutation of its rules and every text of either", "why_tests_cant": "over all schemas, permutations and layouts", "anchors": ["parser/parser.go:ParseFile", "parser/parser.go:parseNamedIdentifier", "transforms/codegen/golang/gen_grouped.go:14-74"]}
{"id": "C84", "title": "Diagnostics tell the truth", "statement": "Whatever the source, every diagnostic returned by ParseFile is true. 'expected T at line L, column C' and 'unexpected token T at line L, column C' quote the position at which the diagnostic starts, which is the position of a token; that token is not what was asked for (no identifier where a rule must begin, no pattern after .regexp, a number outside its type), or is of kind T and cannot begin an operand. A missing assignment names an identifier that no assignment operator follows. An operator is quoted as written. A second declaration gives the line and column at which the value of the first rule declaring the name begins. Undeclared names are undeclared. Four messages in the code are never given (unexpected literal, expected uint literal, expected integer literal, negative lower bound). cddlc parse prints the message with the line of the source it quotes and a mark under that column.", "quantifier": "for all sources (also malformed ones), all environments, every diagnostic returned", "why_tests_cant": "Messages are assembled from parser state (current token, peeked token, saved positions, environment) at some twenty places; a test of one erroneous input says nothing about which position or token is quoted after another prefix of tokens, comments or line breaks.", "anchors": ["parser/parser.go:159", "parser/parser.go:170", "parser/parser.go:185-223", "parser/parser.go:289-311", "parser/parser.go:420-499", "parser/parser.go:565-587", "parser/parser.go:771-817", "parser/parser.go:940-961", "parser/diagnostic.go:10-58", "cmd/cddlc/commands.go:104-127"]}
{"id": "C85", "title": "Start and End give the text of a node", "statement": "Every node of a tree starts at the first byte of its text and ends behind the last one, and asking for the start or the end of a node of a tree never panics. (As stated this is false; what holds is which nodes end where their text ends, and on which nodes the methods panic.)", "quantifier": "all sources, all nodes of the tree", "why_tests_cant": "There are some forty kinds of node, each with its own End method, some with a hand-written length; a test sees the kinds and the spellings it was written for, and the panics need particular nestings.", "anchors": ["ast/*.go Start, End", "token/position.go:35-42 To", "parser/parser.go"]}
{"id": "C86", "title": "generate writes every output, and only those", "statement": "When nothing else uses the disk and every source of every build can be turned into code, cddlc generate succeeds. Afterwards every output holds the header and the code of its source (of the last one, if several sources have the same output), the directories of the outputs exist - made if need be -, and everything else on the disk is as before: sources, other files, other directories.", "quantifier": "all disks (any directories and files), all working directories without wildcard characters, all configurations, any number of builds and sources, all spellings of paths; new directories are not named like sources or outputs", "why_tests_cant": "A test has one directory layout and one configuration; builds with overlapping directories, outputs in the directory of another build's sources, and paths with .. are combinations no fixture covers.", "anchors": ["cmd/cddlc/commands/generate.go:46-147", "config/config.go:88-116"]}
{"id": "C87", "title": "Running generate again changes nothing", "statement": "After a successful generate, running it again leaves the disk exactly as it is. The second run succeeds exactly if the first one made nothing in the working directory whose name begins with 'cddlc.' and comes before the configuration file; otherwise it, and every later run, ends with an error of the configuration.", "quantifier": "all disks, working directories without wildcard characters, configurations and sources as in C86", "why_tests_cant": "The second run sees the outputs of the first one, possibly among its sources and beside its configuration file; whether that matters depends on all names together.", "anchors": ["cmd/cddlc/commands/generate.go:46-147", "cmd/cddlc/commands/generate.go:99-110"]}
{"id": "C88", "title": "init before generate", "statement": "Where there is no configuration, cddlc init followed by cddlc generate writes the same files with the same contents as generate alone, plus cddlc.json. After init, cddlc.json is the configuration that is used unless a name beginning with 'cddlc.' comes before it; in particular a cddlc.yaml that was used before is not used any more, although init reports success.", "quantifier": "all disks and sources as in C86; any decoder that reads the configuration that a text begins with", "why_tests_cant": "It relates two commands through the file system, for every content of the working directory.", "anchors": ["cmd/cddlc/commands/init.go:16-48", "cmd/cddlc/commands/generate.go:46-110", "config/config.go:78-116"]}
{"id": "C89", "title": "cddlc parse prints JSON", "statement": "If 'cddlc parse' succeeds, its standard output is one JSON text as defined by RFC 8259, and it denotes exactly one value: names, comments and texts of any content are quoted so that they cannot break it.", "quantifier": "every source, every message text, every way to write floating point numbers as JSON numbers", "why_tests_cant": "Every string of every source has to be escaped, and the grammar of JSON has to be met by trees of any shape and size.", "anchors": ["cmd/cddlc/commands.go:91-96"]}
{"id": "C90", "title": "The printed tree can be read back", "statement": "A program that reads the output of 'cddlc parse' can rebuild the tree that ParseFile returned, with all nodes, names, texts, numbers, comments and positions; so two sources for which the same is printed have the same tree. (Violated by an unterminated string that ends in a character of several bytes: the lexer drops its last byte, which is printed as U+FFFD, without a diagnostic. Proved for sources in which the lexer finds no error.)", "quantifier": "every source; floating point numbers as far as their texts differ", "why_tests_cant": "It says that printing is injective on all trees the parser can make, which no set of samples shows.", "anchors": ["cmd/cddlc/commands.go:91-96", "lexer/lexer.go:scanString", "ast/"]}
{"id": "C91", "title": "The configuration that init writes can be read", "statement": "The text the encoder makes of a configuration with valid UTF-8 strings, and whatever is added behind it, begins with the JSON of exactly that configuration: the members version, plugins, builds and options by their names. In particular what init writes is a JSON document, and a decoder that reads the configuration a text begins with reads it as the default configuration.", "quantifier": "all configurations without options, all strings, any decoder that reads the configuration that a text begins with", "why_tests_cant": "The strings of a configuration are arbitrary, and the decoder is a library that may be replaced; a test checks one text with one version.", "anchors": ["config/config.go:18-93", "cmd/cddlc/commands/init.go:35-48"]}
{"id": "C92", "title": "Concurrent init leave a usable configuration", "statement": "If any number of init run together in a directory without configuration, in any order and with some of them killed at any point, and one of them succeeds and no write fails, then cddlc.json is afterwards read as the default configuration, even where it holds the text more than once.", "quantifier": "every schedule of any number of runs, each cut anywhere; any decoder that reads the configuration that a text begins with", "why_tests_cant": "All schedules of an unbounded number of processes.", "anchors": ["cmd/cddlc/commands/init.go:getFileHandle", "cmd/cddlc/commands/init.go:InitCmd", "config/config.go:95-116"]}
{"id": "C93", "title": "Controls and ranges bind tighter than choices", "statement": "In 't .size 3 / u', and likewise for the other control operators and for ranges, the operator belongs to the first alternative (RFC 8610: type = type1 *('/' type1)). (Violated for all operands and layouts: everything behind the operator becomes its right operand, so that 't .size 3 / u' is read as 't .size (3 / u)', without an error; parentheses do not help, because a group drops such an entry. Proved: in the last alternative the operator applies to that alternative alone.)", "quantifier": "all supported schemas, all operands and operators, all layouts", "why_tests_cant": "The claim is about every pair of operators and all operands; a test fixes one.", "anchors": ["parser/parser.go:185-230", "token/token.go:262-285"]}
{"id": "C94", "title": "Trees are no deeper than the source is long", "statement": "The tree ParseFile returns is at most as many nodes high as the source has tokens, and so at most as high as it has bytes; a program that walks it recursively needs a stack proportional to the source. The bound is reached.", "quantifier": "every source and environment for which ParseFile returns a tree", "why_tests_cant": "A bound on the depth of every tree in terms of its source needs an induction over all that the parser can do, error recovery included.", "anchors": ["parser/parser.go:98-140", "parser/parser.go:185-230"]}
{"id": "C95", "title": "Exit statuses of lex and parse", "statement": "'cddlc lex' exits with 0 exactly if it has one argument, the file can be read and the lexer gets to the end without an illegal token; with 1 if it has not one argument, the file cannot be read or there is an illegal token; with 2 if the lexer panics. 'cddlc parse' exits with 0 if the parser returns and the tree is not too deep for encoding/json, with 2 if it panics and with 1 otherwise. On files that are well-formed UTF-8 without U+FFFD both exit; on other files lex never exits with 0 or 1.", "quantifier": "all arguments, all files, all answers of the system", "why_tests_cant": "Which inputs lead to which status, and that there is one for all of them, is a statement about all files.", "anchors": ["cmd/cddlc/main.go:67-69", "cmd/cddlc/commands.go:22-97"]}
{"id": "C96", "title": "cddlc parse tells by its exit status whether the schema is in order", "statement": "'cddlc parse' exits with a status other than 0 if the parser reports an error. (Violated: it exits with 0 whatever is reported; refuted. Proved: on files of at most 4998 bytes on which the parser returns the status is always 0, and standard error is empty exactly if there are no diagnostics, so that a script has to look there.)", "quantifier": "every file and message text", "why_tests_cant": "That no list of diagnostics changes the status, and that none of them is silent, is a statement about all sources.", "anchors": ["cmd/cddlc/commands.go:67-97", "cmd/cddlc/main.go:67-69"]}
{"id": "C97", "title": "Printed tokens are scanned back", "statement": "Printing any sequence of tokens from IDENT to FEATURE (without the internal markers) with Token.String, and any integers, decimal fractions and quoted strings between them, on one line with single blanks, and scanning the line returns the same tokens, each with its text as literal (strings without quotes), at line 1, at the byte offset where it was printed and at the column one more, then EOF; no lexer errors.", "quantifier": "every finite sequence of printable tokens, integers, fractions and strings without quotes and newlines", "why_tests_cant": "TestLexerFuzz draws 1000 random sequences of ten tokens; the claim is for all sequences of any length", "anchors": ["token/token.go:String", "lexer/lexer.go:Scan", "lexer/lexer_test.go:TestLexerFuzz"]}
{"id": "C98", "title": "What is accepted is a sentence of a grammar", "statement": "If ParseFile returns a tree and no diagnostics, the tokens of the source up to the end form a sentence of a small grammar: comments and rules, a rule being a name, one of = /= //= and an entry; an entry being a type or value, entries in matching brackets, a mark ? ~ & * + before an entry, a tag # or # with a number and perhaps a bracket, two entries with one of the signs between them, an entry with a comma, a range without an end, and comments at entries. Only the one token behind a comment that the tree keeps behind a rule may be anything.", "quantifier": "every source (any bytes), every starting environment, every fuel with which the model returns", "why_tests_cant": "tests accept or reject samples; the claim is about all accepted sources, so it needs an induction over every path through the parser that records no error", "anchors": ["parser/parser.go:ParseFile", "parser/parser.go:parseRule", "parser/parser.go:parseEntry"]}
{"id": "C99", "title": "Brackets match in accepted sources", "statement": "In a source for which ParseFile reports nothing, every bracket ( [ { is closed by one of its kind and every closing bracket closes one.", "quantifier": "every source, every starting environment", "why_tests_cant": "unbounded nesting and unbounded sources", "anchors": ["parser/parser.go:parseGroup", "parser/parser.go:parseArray", "parser/parser.go:parseMap", "parser/parser.go:parseTag", "parser/parser.go:parseRule"]}
{"id": "C100", "title": "Words of CDDL that no accepted source can use", "statement": "A source in which the scanner finds any, a control other than .size, .bits, .regexp and the comparisons (.cbor, .cborseq, .within, .and, .default, .plus, .cat, .det, .abnf, .abnfb, .feature), one of < > - . as a token of its own, or an illegal token, is never accepted: ParseFile reports a diagnostic or gives no tree, unless the tree keeps a comment behind a rule (which makes the parser pass over the next token).", "quantifier": "every source, every starting environment, every position of the token", "why_tests_cant": "a negative statement about all sources: no sample shows that a token is accepted nowhere", "anchors": ["token/token.go:tokens", "parser/parser.go:NewParser", "parser/parser.go:ParseFile"]}
{"id": "C101", "title": "Later text leaves the items before it alone", "statement": "If two sources begin with the same tokens (same kinds, positions and literals) up to and including the first token of some rule or comment e of the first, and ParseFile returns a tree for both with the same starting environment, then all rules and comments before e in the tree of the first are, unchanged and with the same positions, the beginning of the tree of the second. In particular two sources that are equal up to the end of a line, where e begins before that end, give the same rules and comments before e, whatever stands on the later lines. The item e itself may change.", "quantifier": "every pair of sources, every common prefix, every item, every starting environment, with or without diagnostics in either source", "why_tests_cant": "relates two runs on arbitrary texts that share a prefix; nothing bounds what follows, and errors make the parser resume at arbitrary tokens", "anchors": ["parser/parser.go:ParseFile", "parser/parser.go:parseRule", "parser/parser.go:parseEntry", "lexer/lexer.go:Scan"]}
{"id": "C102", "title": "Identical generate runs at the same time do not disturb each other", "statement": "If cddlc generate would succeed on a disk twice, one run after the other, then any number of runs with the same command line on that disk at the same time all succeed, whatever the order of their system calls (reads, making directories, opening, emptying and writing files at their own positions). At any time each run has ended without an error or is about to make a call, finitely many runs can always end together, and when all have ended all files and directories are exactly as one run alone leaves them. The command line matters, as it is in the header: cddlc gen and cddlc generate at the same time may both succeed and leave an output that is neither's.", "quantifier": "every disk, configuration and set of sources as in C86, any number of runs, every interleaving of their system calls, partly made directories included", "why_tests_cant": "The interleavings of several processes cannot be enumerated or forced by tests; two runs may empty and write the same output in any order.", "anchors": ["cmd/cddlc/commands/generate.go:46-157", "cmd/cddlc/main.go:30-34"]}
{"id": "C103", "title": "The tree depends on the tokens only", "statement": "If two sources have the same tokens (kinds, texts and positions) up to the end of the source, and the lexer records no error while it reads the first two tokens of either, then ParseFile returns the same tree, the same diagnostics and the same declarations for both; errors that the lexer records later make no difference.", "quantifier": "every two sources with the same tokens, every environment", "why_tests_cant": "all pairs of sources", "anchors": ["parser/parser.go:ParseFile", "parser/parser.go:NewParser", "lexer/lexer.go:Scan"]}
{"id": "C104", "title": "A string that is not closed is read as one closed a character earlier", "statement": "A string that the end of its line (or of the source) cuts off, that is not one of the first two tokens and whose last character is ASCII, is parsed exactly like the same source with that last character replaced by a closing quote: the same tree, the same diagnostics, the same declarations, in both directions. So nothing is reported for it and its last character is lost.", "quantifier": "every source, every place of the string after the second token, every text before and after, every environment", "why_tests_cant": "all sources", "anchors": ["lexer/lexer.go:scanString", "parser/parser.go:ParseFile"]}
{"id": "C105", "title": "To rename identifiers changes nothing but the names", "statement": "If all identifiers of a source are renamed so that different names stay different, a name begins with $ after the renaming exactly if it did before, and the layout is kept (or changed as in C78), then ParseFile gives the renamed tree, the same diagnostics in the same order with the names replaced, and the renamed declarations; it panics on the one source exactly if it panics on the other, for the same reason. In particular one identifier may be replaced everywhere by a new one that is no reserved word and does not occur in the source.", "quantifier": "every source, every renaming, every environment", "why_tests_cant": "all sources and all renamings", "anchors": ["parser/parser.go:ParseFile", "parser/parser.go:parseNamedIdentifier", "environment/environment.go:Add"]}
{"id": "C106", "title": "A file can be entered in parts", "statement": "If a source that ends in a line break, has no lexical errors and whose last token is neither a comment nor .regexp is accepted, and a second source is accepted by a parser that starts with the declarations of the first (WithEnv, as the REPL does), then the text of both is parsed to the rules of the first followed by those of the second and leaves the same declarations, up to positions. All that ParseFile can report for it is that the ends of a range are of different kinds, and only of a range with a name that the first source does not declare. In particular, sources entered in the REPL without any message leave the same declarations as the file of these lines.", "quantifier": "every two sources, every environment; every session of any number of lines", "why_tests_cant": "all sources and sessions", "anchors": ["parser/parser.go:ParseFile", "parser/parser.go:WithEnv", "cmd/cddlc/commands/repl.go:Repl"]}
{"id": "C107", "title": "The order of two files does not matter", "statement": "Two sources that each end in a line break, have no lexical errors and do not end in a comment, for each of which alone ParseFile reports at most undeclared names and wrong range ends, and which declare no common name: put one behind the other in either order, ParseFile returns the rules of the one followed by those of the other, the same messages but for their order, and gives every name the same value, up to positions. So forward and backward references between them are treated alike.", "quantifier": "every two such sources, every environment", "why_tests_cant": "all pairs of sources", "anchors": ["parser/parser.go:ParseFile", "parser/parser.go:parseIdentifier", "environment/environment.go:Add"]}
{"id": "C108", "title": "A line break at the end of a source makes no difference", "statement": "A source and the same source with a line break behind it, and any white space behind that, give the same tree, messages and declarations up to positions, or the same panic. A space in place of the line break does make a difference after a comment.", "quantifier": "every source text, with or without errors, every environment", "why_tests_cant": "all sources", "anchors": ["lexer/lexer.go:Scan", "parser/parser.go:ParseFile"]}
{"id": "C109", "title": "The code of a file is the code of its parts", "statement": "For sources as in C106, the code generated for the text of both is the code for the first followed by the code for the second: the declarations in this order, and the imports. If the generator panics for the first, or else for the second, it panics for both in the same way, and in no other case. For sources as in C107, code is generated for them in either order or in neither, with the same declarations and imports in blocks exchanged.", "quantifier": "every two sources, every package name, every spelling library", "why_tests_cant": "all sources", "anchors": ["transforms/codegen/golang/gen_grouped.go:Visit", "parser/parser.go:ParseFile"]}
{"id": "C110", "title": "No more diagnostics than tokens", "statement": "Whatever the source, ParseFile reports at most as many diagnostics as there are tokens in front of the end of the file.", "quantifier": "every source, every environment, every fuel with which the parser returns", "why_tests_cant": "all sources; tests only compare a few lists", "anchors": ["parser/parser.go:ParseFile", "parser/parser.go:parseEntry"]}
{"id": "C111", "title": "No diagnostic is reported twice", "statement": "No two diagnostics of one call of ParseFile have the same message and the same place.", "quantifier": "every clean source, every environment", "why_tests_cant": "all sources", "anchors": ["parser/parser.go:ParseFile", "parser/parser.go:parseIntBound", "parser/parser.go:parseFloatBound"]}
{"id": "C112", "title": "Exactly which files are accepted, and with which trees", "statement": "A source is accepted without diagnostics and with a given tree if and only if its tokens form a file of a small grammar with that tree, no name is declared twice, and no check of names and range ends fails; if only checks fail, exactly their messages are reported, in order. Comments are part of the grammar: where they are passed over, to which rule or field they are attached, and that the token behind a comment on the line of a rule is lost.", "quantifier": "every source (also with comments, unclosed strings, malformed bytes), every environment, every tree", "why_tests_cant": "both directions, over all sources; tests compare a few trees", "anchors": ["parser/parser.go:ParseFile", "parser/parser.go:parseEntry", "parser/parser.go:NewParser"]}
{"id": "C113", "title": "Generated files compile", "statement": "The Go compiler accepts every file that is generated for a schema accepted without diagnostics.", "quantifier": "every accepted source for which code is generated, every package name, both behaviours of go/ast with imports", "why_tests_cant": "all schemas; the project's tests compare a few outputs and compile none", "anchors": ["transforms/codegen/golang/gen.go:String", "transforms/codegen/golang/gen_grouped.go:Visit", "runtime/validators/validators.go:CheckSize"]}
{"id": "C114", "title": "Exactly what happens to names declared twice", "statement": "If the tokens of a source form a file of the grammar (C112), the parser's behaviour is determined whatever names are declared, and however often: the first declaration of a name wins, every further one is reported once, in order, in front of what the checks report, and the tree has all the rules; only if the name was declared first as something whose Start panics does ParseFile panic. Conversely, a source that is read with no other diagnostics than those of repeated names, undeclared names and ends of ranges that do not fit is a file of the grammar with that tree.", "quantifier": "every source, every environment", "why_tests_cant": "all sources, and all combinations of repeated declarations", "anchors": ["parser/parser.go:parseRule", "parser/parser.go:ParseFile", "environment/environment.go:Add"]}
{"id": "C115", "title": "The CDDL of RFC 8610 is accepted, and nothing else", "statement": "A source whose tokens follow the grammar of RFC 8610 (appendix B) and in which every name that is used is declared is accepted, and every accepted source follows that grammar. (False in both directions: text and the names of types are not taken as keys, 'bytes .size 4', 'any', repeated entries without a comma before them and names declared with /= only are refused; a comma behind a rule and a range without an end are accepted. Proved: the grammar with explicit conditions at the productions concerned is read without a panic and without syntax errors, with a tree that has the rules in order; what is reported are only undeclared names and ends of ranges, and nothing if the names are declared and there are no ranges; the same with comments at the places where C26 allows them to be added.)", "quantifier": "every file of the grammar: any number of rules, any nesting, any names and layout", "why_tests_cant": "a grammar has infinitely many sentences; a test suite accepts some", "anchors": ["parser/parser.go:ParseFile", "parser/parser.go:parseEntry", "lexer/lexer.go:Scan"]}
{"id": "C116", "title": "The report of doctor tells the build", "statement": "cddlc doctor does not fail and prints exactly the version, commit, build date, operating system and architecture, each under its own label and in this order, whatever the values are as long as they have no line break; so different builds have different reports.", "quantifier": "every build: any version, commit, date, operating system and architecture without line breaks", "why_tests_cant": "all values, including ones with colons, tabs and text that looks like another label", "anchors": ["cmd/cddlc/commands.go:DoctorCmd"]}
{"id": "C117", "title": "Generated types hold exactly the values of the schema", "statement": "For every schema and every rule of it that is not a group, a value of the generated Go type is written by the CBOR library as a data item that matches the rule, and every data item that matches the rule is written by some value of the type.", "quantifier": "every schema that is generated, every rule of it, every data item", "why_tests_cant": "all schemas, with groups named in arrays to any depth and names of names, and all values, which are infinitely many", "anchors": ["transforms/codegen/golang/gen_grouped.go:Visit", "transforms/codegen/golang/gen_grouped.go:transpileGroupLike", "transforms/codegen/golang/gen_base_types.go", "transforms/codegen/golang/gen_identifiers.go:transpileIdentifier"]}
{"id": "C118", "title": "What is not used can be removed", "statement": "A source consists of three parts, the first two of which end in a line break without lexical errors and not in a comment, and for each of which alone ParseFile reports at most undeclared names and wrong range ends; the first and third declare no common name, and no name that the second declares stands in them. Without the second part ParseFile returns the rules of the others as before, reports the same messages in the same order but for those about the second part, and gives every name that the second does not declare the same value, up to positions. If code is generated for the whole, it is generated without the second part too, with the same declarations and imports but for those of the rules removed.", "quantifier": "every three such sources, every environment, every package name and spelling library", "why_tests_cant": "all sources and all removals; a name can be needed by a check that leaves no trace in the tree", "anchors": ["parser/parser.go:ParseFile", "parser/parser.go:parseIdentifier", "environment/environment.go:Get", "transforms/codegen/golang/gen_grouped.go:Visit"]}
{"id": "C119", "title": "What generate writes is the code of the schemas, from the text to the disk", "statement": "Say that a source has code if its tokens are a file of the grammar, every name is declared once, names are used as they are declared, and every rule has Go declarations; its code is what the printer makes of the package clause, one import of the validators per size control (none with the newer ast.SortImports) and these declarations with their comments, in order. Then parser, generator and printer turn a source into a text if and only if that text is its code. If every source of every build has code and nothing interferes, `cddlc generate` succeeds, every output holds the header and the code of its source, and nothing else on the disk changes. Conversely, whatever else happens on the disk, if it reports success, every source in the directories of all builds was read and has code, and, unless a write failed, every output holds the header and the code of a source that was read.", "quantifier": "for all sources, packages, configurations, disks, printers and case conversions, and for the converse all runs of the command with any answers of the system", "why_tests_cant": "A test runs the command on a few directories; that success means that every source was a well-formed schema whose declarations are all there, in order, is a claim about all sources and all runs.", "anchors": ["cmd/cddlc/commands/generate.go:generateFile", "cmd/cddlc/commands/generate.go:GenerateCmd", "parser/parser.go:ParseFile", "transforms/codegen/golang/gen.go:String", "transforms/codegen/golang/gen_grouped.go:Visit"]}
{"id": "C120", "title": "On a disk of its own, generate harms nothing, and success means that every source was compiled", "statement": "Let cddlc generate run on any disk (directories and files, no links or permissions) that nobody else uses. However it ends - success, an error, a panic, or a source on which it hangs - the disk is as before except for new directories on the way to the output directories of builds of the configuration in the working directory, and for files stem.go in these directories whose source stem.cddl was there before; nothing is removed, no directory becomes a file or a file a directory, and if the configuration cannot be used nothing changes. If it succeeds, every source in the source directory of every build, on the disk as it was before, is a file that has code (C119), and the disk differs only by the header and the code of these sources at their outputs, those written later replacing earlier ones. If some source has no code, it does not succeed.", "quantifier": "for all disks, configurations, sources, printers and case conversions, and all ways in which the command ends", "why_tests_cant": "The outputs of one build may lie in the source directory of the next, directories may be named like sources and files may stand where directories are needed; a test sees a few of these disks.", "anchors": ["cmd/cddlc/commands/generate.go:GenerateCmd", "cmd/cddlc/commands/generate.go:generateFile", "cmd/cddlc/commands/generate.go:readSource"]}
{"id": "C121", "title": "A tree is in the order of the text", "statement": "Read from left to right - an operator between its operands, a prefix or an opening bracket before what it applies to, a comment behind its rule or entry - the positions recorded in the rules returned by ParseFile are positions of tokens of the source, in the order in which the tokens stand there, none twice. So operands are never exchanged, entries are listed in the order of the text, the texts of siblings do not overlap, and nothing that belongs to a node stands before its Start. This holds with and without diagnostics.", "quantifier": "all sources, all environments, all nodes of the returned tree at any depth", "why_tests_cant": "A tree has some forty kinds of node nested without bound, and the order must hold for every pair of nodes in it, also behind syntax errors, where the parser goes on in the middle of a rule; a test compares the trees it lists.", "anchors": ["parser/parser.go:78-107 ParseFile", "parser/parser.go:185-223 parseEntry", "parser/parser.go:336-938", "ast/*.go Start"]}
{"id": "C122", "title": "Diagnostics are listed in the order of the text", "statement": "The diagnostics of a file are listed in the order in which the places they point at stand in the text. False as it stands: the checks of names are made after the last rule, so a name that is not declared is listed behind a syntax error further down, and that two names of a range have different types is listed, at the first name, behind that the second one does not exist. What holds: the list has two parts, first what was found wrong in the rules, then what was found wrong with names. The first part is strictly in the order of the text. So is the second, but for comparisons of two names, and two diagnostics may be about one name.", "quantifier": "for all clean sources, all environments given to the parser, and all runs of the parser that end", "why_tests_cant": "A test has one source; the order depends on when each of the parser's many functions gives up, resumes, or puts off a check, over all nestings of them.", "anchors": ["parser/parser.go:78-107", "parser/parser.go:233-238", "parser/parser.go:819-848", "parser/parser.go:875-889", "parser/parser.go:920-934"]}
{"id": "C123", "title": "Trees are no larger than the source", "statement": "The tree ParseFile returns has at most as many nodes as the source has tokens in front of its end, and so at most as many as it has bytes; even if every rule is counted twice. So memory for the tree grows at most linearly with the source, whatever the nesting, and whether there are diagnostics or not.", "quantifier": "for all sources, all environments, all runs of the parser that return a tree", "why_tests_cant": "The bound must hold for every nesting of every construct, for hostile sources of any length; tests measure samples.", "anchors": ["parser/parser.go:78-107", "parser/parser.go:109-215", "parser/parser.go:501-560", "parser/parser.go:606-703"]}
{"id": "C124", "title": "Parsing takes no more calls than the source has tokens", "statement": "While ParseFile goes through the rules of a source, parseEntry is called at most as many times as the source has tokens in front of its end, and so at most once for every byte; the diagnostics found on the way are within the same bound together with the calls. So no source, well-formed or not and however nested, makes the parser go over a part of it again and again: there is no backtracking.", "quantifier": "for all sources, all environments, all runs of the parser that return a tree; with any note made of the calls", "why_tests_cant": "A file that takes exponentially many calls may be short and of a form that no test has; a bound on the work has to cover every nesting and every malformed source.", "anchors": ["parser/parser.go:78-107", "parser/parser.go:122-180", "parser/parser.go:185-223", "parser/parser.go:501-560"]}
{"id": "C125", "title": "Mistakes do not spill over to the rules behind them", "statement": "Rules are read, declared and put into the tree likewise when they stand behind rules with mistakes: parsing a source with any mistakes followed by another with or without mistakes gives the rules of the first followed by the rules of the second (positions aside), declares the names of both, and reports the mistakes of the first, then those of the second and nothing new, except from the checks of names that are made at the end.", "quantifier": "For all sources A of whole tokens, all sources B without the replacement character and without lexical errors that declare no name that A declares, all environments; in the partial theorem A must not stop where more was expected (an end of file in place of an entry, or a name that is the last token), and B must begin with a name or a comment.", "why_tests_cant": "Recovery has to skip exactly the right tokens after every kind of mistake in every construct; a test shows it for one mistake before one rule, but one handler that skips a token too many loses a correct rule of the user without a word about it.", "anchors": ["parser/parser.go:78-107", "parser/parser.go:122-180", "parser/parser.go:185-223"]}
{"id": "C126", "title": "Sources entered one after the other are read like one file, mistakes or not", "statement": "Parsing sources one after the other with a shared environment (option WithEnv, as the REPL does) gives the same rules and leaves the same bindings (positions aside) as parsing the file of all of them, even if there are mistakes in some. The diagnostics of reading the rules are the same and in the same order, and the file has no undeclared name that was not reported as undeclared in a source.", "quantifier": "For all lists of sources of whole tokens, all environments and all results of parsing them one after the other; in the partial theorem no source but the last stops where more was expected, and no source but the first begins with anything but a name or a comment.", "why_tests_cant": "A test enters some lines and compares; it cannot show for every kind of mistake at every place of every line that neither the shared bindings nor the rules behind it come out differently in a session and in a file.", "anchors": ["parser/parser.go:26-30", "parser/parser.go:78-107", "parser/parser.go:122-180", "cmd/cddlc/commands/repl.go:75-81"]}
{"id": "C127", "title": "A mistake can be mended without effect on the rest of the file", "statement": "Replacing one part of a file by another text (mending a mistake, or making one) changes neither the rules read from the other parts, nor what their names are bound to, nor the diagnostics of reading them (positions aside): the file is read as its parts are, each parsed alone, and a name is reported as undeclared exactly if it is reported for a part alone and no part declares it.", "quantifier": "For all environments and all lists of parts of whole tokens, and all texts put in place of one of them; in the partial theorem no part but the last stops where more was expected, none but the first begins with anything but a name or a comment, and no name is declared in two parts.", "why_tests_cant": "A test mends one mistake in one file; it cannot show for every mistake, every mended text and all that surrounds it that nothing else is read differently.", "anchors": ["parser/parser.go:78-107", "parser/parser.go:122-180", "parser/parser.go:26-30"]}
{"id": "C128", "title": "The order of the parts of a file does not matter, mistakes or not", "statement": "Putting the parts of a file in another order puts the rules into another order and nothing else: every name is bound to the same, and the same diagnostics are reported, each as many times as before (positions aside), even if there are mistakes in some parts.", "quantifier": "For all environments, all lists of parts of whole tokens and all permutations of them; in the partial theorem, in both orders, no part but the last stops where more was expected, none but the first begins with anything but a name or a comment, and no name is declared in two parts.", "why_tests_cant": "A test exchanges some rules of some files; it cannot show for every mistake and every order that no diagnostic appears, is lost or is worded differently, nor that a name is bound to something else.", "anchors": ["parser/parser.go:78-107", "parser/parser.go:122-180", "parser/parser.go:225-240"]}
{"id": "C129", "title": "Removing parts of a file takes away what they say and nothing else", "statement": "Removing some parts of a file leaves the rules of the other parts, their bindings and the diagnostics of reading them as they were (positions aside). A name that is no longer bound was declared in a part removed, a name newly reported as undeclared too, and if no name is lost then nothing new is reported at all.", "quantifier": "For all environments, all lists of parts of whole tokens, with or without mistakes, and all choices of parts to remove but that of all; in the partial theorem no part but the last stops where more was expected, none but the first begins with anything but a name or a comment, and no name is declared in two parts.", "why_tests_cant": "A test removes some rules of some files; it cannot show for every mistake and every choice of parts that nothing else changes and that no complaint is new but those about names that went with them.", "anchors": ["parser/parser.go:78-107", "parser/parser.go:122-180", "parser/parser.go:229-240"]}
