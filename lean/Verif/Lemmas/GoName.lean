import Verif.Spec.Codegen
import Verif.Lemmas.Utf8

/-! How names are translated. -/

namespace Cddlc
open Spec
variable [Unicode]

omit [Unicode] in
theorem encChar_length (c : Char) : 0 < (String.utf8EncodeChar c).length := by
  rw [String.length_utf8EncodeChar]; exact Char.utf8Size_pos c

omit [Unicode] in
theorem goRunes_enc (cs : List Char) (n : Nat) (h : (enc cs).length ≤ n) :
    goRunes n (enc cs) = cs.map Char.toNat := by
  induction cs generalizing n with
  | nil => cases n <;> rfl
  | cons c cs ih =>
    have := encChar_length c
    rw [enc_cons, List.length_append] at h
    cases n with
    | zero => omega
    | succ n =>
      have hne : enc (c :: cs) ≠ [] := by
        rw [enc_cons]; intro h0; rw [List.append_eq_nil_iff] at h0; rw [h0.1] at this; cases this
      have : goRunes (n + 1) (enc (c :: cs)) =
          (decodeRune (enc (c :: cs))).1 :: goRunes n ((enc (c :: cs)).drop (decodeRune (enc (c :: cs))).2) := by
        rw [goRunes.eq_def]; split
        · omega
        · rename_i h0 _; exact absurd h0 hne
        · rename_i n' _ _ h1 _; cases h1; rfl
      rw [this, enc_cons, decodeRune_encChar, List.drop_left, ih n (by omega)]
      rfl

omit [Unicode] in
theorem goRunes_chars (n : Nat) (s : Bytes) (h : s.length ≤ n)
    (hn : ∀ r ∈ goRunes n s, r ≠ runeError) : ∃ cs, s = enc cs := by
  induction n generalizing s with
  | zero => cases s with
    | nil => exact ⟨[], rfl⟩
    | cons _ _ => cases h
  | succ n ih =>
    cases s with
    | nil => exact ⟨[], rfl⟩
    | cons b s =>
      have he : goRunes (n + 1) (b :: s) = (decodeRune (b :: s)).1 ::
          goRunes n ((b :: s).drop (decodeRune (b :: s)).2) := rfl
      rw [he] at hn
      obtain ⟨c, rest, h1, _⟩ := decodeRune_ne_error (hn _ (List.mem_cons_self ..))
      have hl := encChar_length c
      have hr := congrArg List.length h1
      rw [List.length_append] at hr
      rw [h1, decodeRune_encChar, List.drop_left] at hn
      obtain ⟨cs, h2⟩ := ih rest (by omega) fun r hr => hn r (List.mem_cons_of_mem _ hr)
      exact ⟨c :: cs, by rw [h1, h2]; rfl⟩

theorem letter_repl (h : NoReplacement) : uniIsLetter ((runeError : Nat) : Int) = false := by
  exact h.1

theorem digit_repl (h : NoReplacement) : uniIsDigit ((runeError : Nat) : Int) = false := by
  exact h.2

theorem isGoIdentifier_iff (hU : NoReplacement) (s : Bytes) : isGoIdentifier s = true ↔ GoIdent s := by
  have under : ∀ c : Char, c.toNat = 95 ↔ c = '_' := by
    intro c
    constructor
    · intro h; apply Char.ext; apply UInt32.toNat_inj.1; exact h
    · rintro rfl; rfl
  constructor
  · intro h
    unfold isGoIdentifier at h
    simp only [Bool.and_eq_true, Bool.not_eq_true', List.isEmpty_eq_false_iff,
      List.contains_eq_mem, decide_eq_false_iff_not] at h
    obtain ⟨⟨hne, hk⟩, hr⟩ := h
    obtain ⟨cs, rfl⟩ := goRunes_chars s.length s (Nat.le_refl _) fun r hrm hre => by
      subst hre
      split at hr
      · rename_i h0; rw [h0] at hrm; cases hrm
      · rename_i c cs h0
        rw [h0] at hrm
        simp only [Bool.and_eq_true, List.all_eq_true, Bool.or_eq_true, decide_eq_true_eq] at hr
        rcases List.mem_cons.1 hrm with h1 | h1
        · rw [← h1, letter_repl hU] at hr
          rcases hr.1 with h2 | h2 <;> cases h2
        · have := hr.2 _ h1
          rw [letter_repl hU, digit_repl hU] at this
          rcases this with (h2 | h2) | h2 <;> cases h2
    rw [goRunes_enc cs _ (Nat.le_refl _)] at hr
    cases cs with
    | nil => exact absurd rfl hne
    | cons c cs =>
      simp only [List.map_cons, Bool.and_eq_true, List.all_eq_true, Bool.or_eq_true,
        decide_eq_true_eq, List.mem_map, forall_exists_index, and_imp, forall_apply_eq_imp_iff₂,
        under] at hr
      exact ⟨hk, c, cs, rfl, hr.1.symm, fun d hd => (hr.2 d hd).imp Or.symm id⟩
  · rintro ⟨hk, c, cs, rfl, h1, h2⟩
    unfold isGoIdentifier
    simp only [Bool.and_eq_true, Bool.not_eq_true', List.isEmpty_eq_false_iff,
      List.contains_eq_mem, decide_eq_false_iff_not]
    refine ⟨⟨?_, hk⟩, ?_⟩
    · intro h0
      have := encChar_length c
      rw [enc_cons, List.append_eq_nil_iff] at h0
      rw [h0.1] at this; cases this
    · rw [goRunes_enc _ _ (Nat.le_refl _)]
      simp only [List.map_cons, Bool.and_eq_true, List.all_eq_true, Bool.or_eq_true,
        decide_eq_true_eq, List.mem_map, forall_exists_index, and_imp, forall_apply_eq_imp_iff₂,
        under]
      exact ⟨h1.symm, fun d hd => (h2 d hd).imp Or.symm id⟩

omit [Unicode] in
theorem undollared_trim (s : Bytes) : Undollared s (trimDollars s) := by
  induction s with
  | nil => exact .done (by simp)
  | cons c s ih =>
    unfold trimDollars
    split
    · next h => subst h; exact .more ih
    · next h => exact .done (by simpa using h)

omit [Unicode] in
theorem undollared_unique {s a : Bytes} (h : Undollared s a) : a = trimDollars s := by
  induction h with
  | more _ ih => rw [ih]; rfl
  | @done a h =>
    cases a with
    | nil => rfl
    | cons c s => unfold trimDollars; rw [if_neg (by simpa using h)]

/-- The function behind `Formatted`. -/
def formattedName (lib : GoLib) (i : Ident) : Bytes :=
  if i.isSocket || i.isPlug then trimDollars i.name else lib.toCamel i.name

omit [Unicode] in
theorem socket_or_plug (i : Ident) : (i.isSocket || i.isPlug) = true ↔ i.name.head? = some 36 := by
  obtain ⟨p, name⟩ := i
  cases name with
  | nil => simp [Ident.isSocket, Ident.isPlug]
  | cons c s =>
    cases s with
    | nil => simp [Ident.isSocket, Ident.isPlug]
    | cons d s =>
      simp only [Ident.isSocket, List.head?_cons, Option.some.injEq]
      by_cases h : c = 36
      · subst h
        by_cases h' : d = 36
        · subst h'; simp [Ident.isPlug]
        · have : (Ident.mk p (36 :: d :: s)).isPlug = false := by
            unfold Ident.isPlug; split
            · rename_i h0; simp only [List.cons.injEq] at h0; exact absurd h0.2.1 h'
            · rfl
          simp [this]
      · have : (Ident.mk p (c :: d :: s)).isPlug = false := by
          unfold Ident.isPlug; split
          · rename_i h0; simp only [List.cons.injEq] at h0; exact absurd h0.1 h
          · rfl
        simp [this, h]

omit [Unicode] in
theorem formatted_iff {lib : GoLib} {i : Ident} {f : Bytes} : Formatted lib i f ↔ f = formattedName lib i := by
  unfold Formatted formattedName
  by_cases h : i.name.head? = some 36
  · rw [if_pos h, if_pos ((socket_or_plug i).2 h)]
    exact ⟨undollared_unique, fun h => h ▸ undollared_trim _⟩
  · rw [if_neg h, if_neg fun h' => h ((socket_or_plug i).1 h')]

theorem transpile_cases (hU : NoReplacement) (lib : GoLib) (i : Ident) :
    (∃ n, transpileIdentifier lib i = .ok n ∧ ∀ m, Named lib i m ↔ m = n) ∨
    (transpileIdentifier lib i = .panic .explicit ∧ ∀ m, ¬ Named lib i m) := by
  have e : transpileIdentifier lib i = if isGoIdentifier (formattedName lib i) then .ok (formattedName lib i)
      else match parseInt (formattedName lib i) with
        | .error _ => .panic .explicit
        | .ok _ => .ok (b!"IntKey_" ++ formattedName lib i) := rfl
  by_cases h : isGoIdentifier (formattedName lib i) = true
  · rw [if_pos h] at e
    have hg := (isGoIdentifier_iff hU _).1 h
    refine Or.inl ⟨_, e, fun m => ⟨?_, ?_⟩⟩
    · rintro (⟨hf, _⟩ | ⟨hf, hn, _⟩)
      · exact formatted_iff.1 hf
      · rw [formatted_iff.1 hf] at hn; exact absurd hg hn
    · rintro rfl; exact .asIs (formatted_iff.2 rfl) hg
  · rw [if_neg h] at e
    have hg : ¬ GoIdent (formattedName lib i) := fun h' => h ((isGoIdentifier_iff hU _).2 h')
    cases hp : parseInt (formattedName lib i) with
    | error x =>
      rw [hp] at e
      refine Or.inr ⟨e, fun m => ?_⟩
      rintro (⟨hf, hn⟩ | ⟨hf, _, hv⟩)
      · rw [formatted_iff.1 hf] at hn; exact hg hn
      · rw [formatted_iff.1 hf, hp] at hv; cases hv
    | ok v =>
      rw [hp] at e
      refine Or.inl ⟨_, e, fun m => ⟨?_, ?_⟩⟩
      · rintro (⟨hf, hn⟩ | ⟨hf, _, _⟩)
        · rw [formatted_iff.1 hf] at hn; exact absurd hn hg
        · rw [formatted_iff.1 hf]
      · rintro rfl; exact .key (formatted_iff.2 rfl) hg hp

/-! ### Numbers as names -/

omit [Unicode] in
theorem digitVal_word {c : UInt8} {d : Nat} (h : digitVal c = some d) : wordByte c = true := by
  revert h
  have : ∀ c : Fin 256, ∀ d, digitVal (UInt8.ofNat c.val) = some d → wordByte (UInt8.ofNat c.val) = true := by
    intro c d h
    have : (digitVal (UInt8.ofNat c.val)).isSome = true := by rw [h]; rfl
    clear h
    revert c
    decide +kernel
  have h2 := this ⟨c.toNat, c.toNat_lt⟩ d
  simpa using h2

omit [Unicode] in
theorem parseUintLoop_word (base : Nat) (n : Nat) (us : Bool) (s : Bytes) {r} (h : parseUintLoop base n us s = .ok r) :
    ∀ c ∈ s, wordByte c = true := by
  induction s generalizing n us with
  | nil => simp
  | cons c s ih =>
    unfold parseUintLoop at h
    split at h
    · next hc =>
      intro x hx
      rcases List.mem_cons.1 hx with rfl | hx
      · subst hc; rfl
      · exact ih _ _ h x hx
    · split at h
      · cases h
      · next d hd =>
        split at h
        · cases h
        · split at h
          · cases h
          · intro x hx
            rcases List.mem_cons.1 hx with rfl | hx
            · exact digitVal_word hd
            · exact ih _ _ h x hx

omit [Unicode] in
theorem prefix_word {c : UInt8} (h : lowerByte c = 98 ∨ lowerByte c = 111 ∨ lowerByte c = 120) :
    wordByte c = true := by
  have : ∀ c : Fin 256, (lowerByte (UInt8.ofNat c.val) = 98 ∨ lowerByte (UInt8.ofNat c.val) = 111 ∨
      lowerByte (UInt8.ofNat c.val) = 120) → wordByte (UInt8.ofNat c.val) = true := by decide +kernel
  have h2 := this ⟨c.toNat, c.toNat_lt⟩
  simpa using h2 (by simpa using h)

omit [Unicode] in
theorem parseUint_word {s : Bytes} {v : Nat} (h : parseUint s = .ok v) : ∀ c ∈ s, wordByte c = true := by
  have loop : ∀ {base body} {t : Bytes}, (match parseUintLoop base 0 false body with
      | .error e => .error e
      | .ok (n, us) => if us && !underscoreOK t then .error .syntax else .ok n : Except NumErr Nat) = .ok v →
      ∀ c ∈ body, wordByte c = true := by
    intro base body t h
    split at h
    · cases h
    · next hl => exact parseUintLoop_word _ _ _ _ hl
  unfold parseUint at h
  split at h
  · cases h
  · split at h
    next base body hb =>
    have hl := loop h
    split at hb
    · next c d rest _ =>
      have h0 : wordByte 48 = true := rfl
      have key : ∀ P : Prop, P → wordByte c = true → (d :: rest = body) →
          ∀ x ∈ 48 :: c :: d :: rest, wordByte x = true := by
        intro _ _ hc hb x hx
        rcases List.mem_cons.1 hx with rfl | hx
        · exact h0
        rcases List.mem_cons.1 hx with rfl | hx
        · exact hc
        · rw [hb] at hx; exact hl x hx
      split at hb
      · next h1 => injection hb with _ hb; exact key True trivial (prefix_word (Or.inl h1)) hb
      split at hb
      · next h1 => injection hb with _ hb; exact key True trivial (prefix_word (Or.inr (Or.inl h1))) hb
      split at hb
      · next h1 => injection hb with _ hb; exact key True trivial (prefix_word (Or.inr (Or.inr h1))) hb
      · injection hb with _ hb
        subst hb
        intro x hx
        rcases List.mem_cons.1 hx with rfl | hx
        · exact h0
        · exact hl x hx
    · injection hb with _ hb
      subst hb
      intro x hx
      rcases List.mem_cons.1 hx with rfl | hx
      · rfl
      · exact hl x hx
    · injection hb with _ hb
      subst hb
      exact hl

omit [Unicode] in
theorem parseInt_word {s : Bytes} {v : Int} (h : parseInt s = .ok v) :
    s.head? = some 43 ∨ s.head? = some 45 ∨ ∀ c ∈ s, wordByte c = true := by
  unfold parseInt at h
  split at h
  · cases h
  · next c rest =>
    by_cases hc : c = 43 ∨ c = 45
    · rcases hc with rfl | rfl
      · exact Or.inl rfl
      · exact Or.inr (Or.inl rfl)
    · simp only [hc, if_false] at h
      split at h
      · cases h
      · cases h
      · next hu => exact Or.inr (Or.inr (parseUint_word hu))

omit [Unicode] in
theorem goRunes_ascii (s : Bytes) (h : ∀ c ∈ s, c.toNat < 128) (n : Nat) (hn : s.length ≤ n) :
    goRunes n s = s.map UInt8.toNat := by
  induction s generalizing n with
  | nil => cases n <;> rfl
  | cons c s ih =>
    cases n with
    | zero => cases hn
    | succ n =>
      have hc := h c (List.mem_cons_self ..)
      have hd : decodeRune (c :: s) = (c.toNat, 1) := by
        unfold decodeRune; simp [hc]
      show (decodeRune (c :: s)).1 :: goRunes n ((c :: s).drop (decodeRune (c :: s)).2) = _
      rw [hd]
      show c.toNat :: goRunes n s = _
      rw [ih (fun x hx => h x (List.mem_cons_of_mem _ hx)) n (by simpa using hn)]
      rfl

omit [Unicode] in
theorem word_ascii {c : UInt8} (h : wordByte c = true) : c.toNat < 128 := by
  have : ∀ c : Fin 256, wordByte (UInt8.ofNat c.val) = true → c.val < 128 := by decide +kernel
  have h2 := this ⟨c.toNat, c.toNat_lt⟩
  simpa using h2 (by simpa using h)

theorem word_rune {c : UInt8} (h1 : c.toNat < 128) :
    (uniIsLetter (c.toNat : Int) = true ∨ c.toNat = 95 ↔ wordByte c = true ∧ (c.toNat < 48 ∨ 57 < c.toNat)) ∧
    (uniIsLetter (c.toNat : Int) = true ∨ c.toNat = 95 ∨ uniIsDigit (c.toNat : Int) = true ↔
      wordByte c = true) := by
  have h2 : wordByte c = true ↔ (65 ≤ c.toNat ∧ c.toNat ≤ 90) ∨ (97 ≤ c.toNat ∧ c.toNat ≤ 122) ∨
      c.toNat = 95 ∨ (48 ≤ c.toNat ∧ c.toNat ≤ 57) := by
    have : ∀ c : Fin 256, wordByte (UInt8.ofNat c.val) = true ↔ (65 ≤ c.val ∧ c.val ≤ 90) ∨
        (97 ≤ c.val ∧ c.val ≤ 122) ∨ c.val = 95 ∨ (48 ≤ c.val ∧ c.val ≤ 57) := by decide +kernel
    simpa using this ⟨c.toNat, c.toNat_lt⟩
  have e1 : uniIsLetter (c.toNat : Int) = ((65 ≤ c.toNat && c.toNat ≤ 90) || (97 ≤ c.toNat && c.toNat ≤ 122) ||
      c.toNat = 0xAA || c.toNat = 0xB5 || c.toNat = 0xBA ||
      (0xC0 ≤ c.toNat && c.toNat ≤ 0xD6) || (0xD8 ≤ c.toNat && c.toNat ≤ 0xF6) || (0xF8 ≤ c.toNat : Bool)) := by
    show (if c.toNat ≤ 0xFF then _ else _) = _
    rw [if_pos (by omega)]
  have e2 : uniIsDigit (c.toNat : Int) = (48 ≤ c.toNat && c.toNat ≤ 57 : Bool) := by
    show (if c.toNat ≤ 0xFF then _ else _) = _
    rw [if_pos (by omega)]
  rw [e1, e2, h2]
  simp only [Bool.or_eq_true, Bool.and_eq_true, decide_eq_true_eq]
  omega

/-- The ASCII strings that are Go identifiers. -/
theorem goIdent_ascii (hU : NoReplacement) {s : Bytes} (hs : ∀ c ∈ s, c.toNat < 128) :
    GoIdent s ↔ s ∉ goKeywords ∧ (∀ c ∈ s, wordByte c = true) ∧
      ∃ c t, s = c :: t ∧ (c.toNat < 48 ∨ 57 < c.toNat) := by
  rw [← isGoIdentifier_iff hU]
  unfold isGoIdentifier
  rw [goRunes_ascii _ hs _ (Nat.le_refl _)]
  cases s with
  | nil => simp
  | cons c s =>
    have hc := word_rune (hs c (List.mem_cons_self ..))
    have ht : ∀ x ∈ s, (uniIsLetter (x.toNat : Int) = true ∨ x.toNat = 95 ∨ uniIsDigit (x.toNat : Int) = true ↔
      wordByte x = true) := fun x hx => (word_rune (hs x (List.mem_cons_of_mem _ hx))).2
    simp only [List.map_cons, Bool.and_eq_true, List.all_eq_true, Bool.or_eq_true, decide_eq_true_eq,
      List.mem_map, forall_exists_index, and_imp, forall_apply_eq_imp_iff₂, Bool.not_eq_true',
      List.isEmpty_eq_false_iff, List.contains_eq_mem, decide_eq_false_iff_not]
    rw [hc.1]
    constructor
    · rintro ⟨⟨_, hk⟩, ⟨h1, h2⟩, h3⟩
      refine ⟨hk, fun x hx => ?_, c, s, rfl, h2⟩
      rcases List.mem_cons.1 hx with rfl | hx
      · exact h1
      · rw [← ht x hx]; exact or_assoc.1 (h3 x hx)
    · rintro ⟨hk, h1, _, _, h, h2⟩
      cases h
      refine ⟨⟨nofun, hk⟩, ⟨h1 c (List.mem_cons_self ..), h2⟩, fun x hx => ?_⟩
      rw [or_assoc, ht x hx]; exact h1 x (List.mem_cons_of_mem _ hx)

/-- ASCII words that begin with a letter or underscore are Go identifiers, unless they are
keywords. -/
theorem goIdent_word (hU : NoReplacement) {c : UInt8} {s : Bytes}
    (hd : c.toNat < 48 ∨ 57 < c.toNat) (hs : ∀ x ∈ c :: s, wordByte x = true) (hk : c :: s ∉ goKeywords) :
    GoIdent (c :: s) :=
  (goIdent_ascii hU fun x hx => word_ascii (hs x hx)).2 ⟨hk, hs, c, s, rfl, hd⟩

end Cddlc
