import Verif.Strings.NameLemmas
/-!
# Properties of string literals, encodings and names
-/
namespace Verif.Strings

open Spec

/-! ## C48 A string literal means the same everywhere -/

/-- Whenever the lexer accepts a string literal, it is written as a sequence of allowed pieces up to its closing
quote, and the characters these denote are what the compiler computes for the literal, what an Erlang compiler
reads from the generated Erlang literal, and what a JavaScript engine reads from the generated JavaScript literal. -/
theorem string_literal_agreement (src content rest : List Char)
    (h : lexString (normalise src) = some (content, rest)) :
    ∃ pieces value, normalise src = text pieces ++ '"' :: rest ∧ content = text pieces ∧ Denotes pieces value ∧
      convert content = value ∧
      Reads erlangChar (escapeErlang 0 content) value ∧
      Reads jsChar (jsStringContent content) value := by
  obtain ⟨ps, v, hd, hc, hs⟩ := lexLoop_sound _ _ _ _ _ h
  rw [List.nil_append] at hc
  subst hc
  refine ⟨ps, v, hs, rfl, hd, convertLoop_pieces ps v hd _ (by omega), reads_erlang ps v hd, reads_js ps v hd ?_⟩
  intro hr
  apply normalise_no_cr src
  rw [hs]; simp [hr]

/-- Every literal written with allowed pieces is accepted, up to its closing quote. -/
theorem string_literal_accepted (pieces : List Piece) (value rest : List Char) (h : Denotes pieces value) :
    lexString (text pieces ++ '"' :: rest) = some (text pieces, rest) := by
  have := lexLoop_complete pieces value h [] rest ((text pieces ++ '"' :: rest).length + 1) (by simp; omega)
  simpa [lexString] using this

/-- A target reads at most one value from a literal. -/
theorem reads_unique (one : List Char → Option (Char × List Char)) (h0 : one [] = none) (s v w : List Char)
    (h1 : Reads one s v) (h2 : Reads one s w) : v = w := by
  induction h1 generalizing w with
  | nil => cases h2 with
    | nil => rfl
    | cons h _ => rw [h0] at h; simp at h
  | cons h hr ih => cases h2 with
    | nil => rw [h0] at h; simp at h
    | cons h' hr' =>
      rw [h] at h'
      simp only [Option.some.injEq, Prod.mk.injEq] at h'
      obtain ⟨rfl, rfl⟩ := h'
      rw [ih _ hr']

example : lexString (normalise "a\\u{1F600}\\\\u\r\n\" <> b".toList) = some ("a\\u{1F600}\\\\u\n".toList, " <> b".toList) := by
  decide +kernel
example : convert "a\\u{1F600}\\\\u\n".toList = ['a', '😀', '\\', 'u', '\n'] := by decide +kernel
example : escapeErlang 0 "a\\u{1F600}\\\\u\n".toList = "a\\x{1F600}\\\\u\n".toList := by decide +kernel
example : Denotes [.char 'a', .unicode "1F600".toList, .backslash] ['a', '😀', '\\'] := by
  unfold Denotes; decide +kernel
/-- Code points that are not characters are rejected. -/
example : lexString "\\u{D800}\"".toList = none := by decide +kernel

/-! ## C11 Encodings -/

/-- The UTF-16 bytes of a string decode to the string. -/
theorem utf16_decodes (s : List Char) (e : Endianness) :
    (units (e = .big) (stringToUtf16Bytes s e)).bind decodeUtf16 = some s := by
  have h1 : stringToUtf16Bytes s e = (s.flatMap encodeUtf16).flatMap (bytes16 e) ++ [] := by
    simp [stringToUtf16Bytes, List.flatMap_assoc]
  rw [h1, units_flat]
  · simp only [units, Option.map_some, List.append_nil, Option.bind_some]
    clear h1
    induction s with
    | nil => simp [decodeUtf16]
    | cons c s ih => rw [List.flatMap_cons, decodeUtf16_encode, ih]; rfl
  · intro u hu
    obtain ⟨c, _, hc⟩ := List.mem_flatMap.1 hu
    exact encode_lt c u hc

/-- The UTF-32 bytes of a string decode to the string. -/
theorem utf32_decodes (s : List Char) (e : Endianness) : decodeUtf32 (e = .big) (stringToUtf32Bytes s e) = some s := by
  induction s with
  | nil => rfl
  | cons c s ih =>
    have hb := char_bound c
    have hs : stringToUtf32Bytes (c :: s) e = bytes32 e c.toNat ++ stringToUtf32Bytes s e := rfl
    rw [hs]
    cases e with
    | big =>
      simp only [bytes32, List.cons_append, List.nil_append, decodeUtf32, decide_true, if_true]
      rw [show ((c.toNat / 16777216 * 256 + c.toNat / 65536 % 256) * 256 + c.toNat / 256 % 256) * 256 + c.toNat % 256 = c.toNat by omega,
        scalar_toNat]
      simpa using ih
    | little =>
      simp only [bytes32, List.cons_append, List.nil_append, decodeUtf32]
      rw [if_neg (by decide),
        show ((c.toNat / 16777216 * 256 + c.toNat / 65536 % 256) * 256 + c.toNat / 256 % 256) * 256 + c.toNat % 256 = c.toNat by omega,
        scalar_toNat]
      simpa using ih

theorem lengthUtf16_foldl (s : List Char) (n : Nat) :
    s.foldl (fun n c => n + if c.toNat < 0x10000 then 1 else 2) n = n + (s.flatMap encodeUtf16).length := by
  induction s generalizing n with
  | nil => simp
  | cons c s ih =>
    rw [List.foldl_cons, ih, List.flatMap_cons, List.length_append]
    have : (encodeUtf16 c).length = if c.toNat < 0x10000 then 1 else 2 := by
      unfold encodeUtf16; split <;> rfl
    omega

/-- The computed UTF-16 length counts the 16-bit units of the encoding. -/
theorem utf16_length (s : List Char) (e : Endianness) : (stringToUtf16Bytes s e).length = 2 * lengthUtf16 s := by
  rw [lengthUtf16, lengthUtf16_foldl, Nat.zero_add]
  have h1 : stringToUtf16Bytes s e = (s.flatMap encodeUtf16).flatMap (bytes16 e) := by
    simp [stringToUtf16Bytes, List.flatMap_assoc]
  rw [h1]
  generalize s.flatMap encodeUtf16 = us
  induction us with
  | nil => rfl
  | cons u us ih =>
    rw [List.flatMap_cons, List.length_append, ih, List.length_cons]
    have : (bytes16 e u).length = 2 := by cases e <;> rfl
    omega

/-- The computed UTF-32 length counts the 32-bit units. -/
theorem utf32_length (s : List Char) (e : Endianness) : (stringToUtf32Bytes s e).length = 4 * lengthUtf32 s := by
  induction s with
  | nil => rfl
  | cons c s ih =>
    have hs : stringToUtf32Bytes (c :: s) e = bytes32 e c.toNat ++ stringToUtf32Bytes s e := rfl
    have : (bytes32 e c.toNat).length = 4 := by cases e <;> rfl
    rw [hs, List.length_append, ih, this]
    simp [lengthUtf32]; omega

/-- Lengths add up, so slicing off the computed length of a prefix leaves the encoding of the rest. This is what
string prefix patterns compile to on JavaScript. -/
theorem utf16_prefix (p r : List Char) (e : Endianness) :
    (stringToUtf16Bytes (p ++ r) e).drop (2 * lengthUtf16 p) = stringToUtf16Bytes r e := by
  rw [← utf16_length p e]
  have : stringToUtf16Bytes (p ++ r) e = stringToUtf16Bytes p e ++ stringToUtf16Bytes r e := by
    simp [stringToUtf16Bytes]
  rw [this, List.drop_left]

example : stringToUtf16Bytes "a😀".toList .big = [0, 97, 0xD8, 0x3D, 0xDE, 0x00] ∧ lengthUtf16 "a😀".toList = 3 := by
  decide +kernel

/-! ## C12 Names -/

/-- The name check accepts exactly the documented names. -/
theorem check_name_case_iff (s : List Char) :
    (checkNameCase s .upper = true ↔ UpperCamel s) ∧
    (checkNameCase s .lower = true ↔ LowerName s) ∧
    (checkNameCase s .discard = true ↔ DiscardName s) := by
  refine ⟨validUpname_iff s, ?_, ?_⟩
  · cases s with
    | nil => simp [checkNameCase, validName, LowerName]
    | cons a t =>
      simp only [checkNameCase, validName]
      split
      · rename_i ha
        subst ha
        cases t with
        | nil =>
          simp only [plainName, LowerName]
          constructor
          · simp
          · rintro ⟨c, t, h | h, hl, _⟩
            · simp only [List.cons.injEq] at h
              exact absurd h.1.symm (sep_not_lower hl).1
            · simp at h
        | cons b t =>
          simp only [plainName, Bool.and_eq_true, isLowerChar_iff, snake_all, LowerName]
          constructor
          · rintro ⟨h1, h2⟩; exact ⟨b, t, Or.inr rfl, h1, h2⟩
          · rintro ⟨c, t', h | h, hl, hs⟩
            · simp only [List.cons.injEq] at h
              exact absurd h.1.symm (sep_not_lower hl).1
            · simp only [List.cons.injEq, true_and] at h
              obtain ⟨rfl, rfl⟩ := h
              exact ⟨hl, hs⟩
      · rename_i ha
        simp only [plainName, Bool.and_eq_true, isLowerChar_iff, snake_all, LowerName]
        constructor
        · rintro ⟨h1, h2⟩; exact ⟨a, t, Or.inl rfl, h1, h2⟩
        · rintro ⟨c, t', h | h, hl, hs⟩
          · simp only [List.cons.injEq] at h
            obtain ⟨rfl, rfl⟩ := h
            exact ⟨hl, hs⟩
          · simp only [List.cons.injEq] at h
            exact absurd h.1 ha
  · cases s with
    | nil => simp [checkNameCase, validDiscardName, DiscardName]
    | cons a t =>
      simp only [checkNameCase, validDiscardName, Bool.and_eq_true, decide_eq_true_eq, snake_all, DiscardName]
      constructor
      · rintro ⟨rfl, h⟩; exact ⟨t, rfl, h⟩
      · rintro ⟨t', h, hs⟩
        simp only [List.cons.injEq] at h
        obtain ⟨rfl, rfl⟩ := h
        exact ⟨rfl, hs⟩

/-- The corrected spelling of a variable, argument, label, constant or function name is accepted. -/
theorem suggested_lower_valid (up : Char → Bool) (name : List Char) (h : NameToken name) :
    LowerName (correctNameCase up name .lower) := by
  obtain ⟨c, t, rfl, hc, ht⟩ := h
  simp only [correctNameCase, toSnake_eq, snakeOut]
  rw [if_neg (by simp [sep_not_lower hc]), toLower_other c (not_upper_lower hc)]
  exact ⟨c, snakeOut up true false t, Or.inl (by simp), hc, snakeOut_snake up t ht _ _⟩

/-- The corrected spelling of a discard is accepted. -/
theorem suggested_discard_valid (up : Char → Bool) (name : List Char) (h : DiscardToken name) :
    DiscardName (correctNameCase up name .discard) := by
  obtain ⟨t, rfl, ht⟩ := h
  refine ⟨_, rfl, ?_⟩
  rw [toSnake_eq, snakeOut, if_pos (Or.inl rfl)]
  exact snakeOut_snake up t ht _ _

/-- The corrected spelling of a type or constructor name is accepted unless the name contains `__`.
Full statement: it is always accepted; the code does not achieve this (`suggested_upper_invalid`). -/
theorem suggested_upper_valid_partial (up : Char → Bool) (name : List Char) (h : UpNameToken name) :
    UpperCamel (correctNameCase up name .upper) ↔ ¬ ['_', '_'] <:+: name := by
  obtain ⟨c, t, rfl, hc, ht⟩ := h
  have hne : c ≠ '_' := (sep_not_upper hc).1
  have hcam : toUpperCamelCase (c :: t) = c :: toUpperCamelCase t := by
    conv => lhs; unfold toUpperCamelCase
    rw [if_neg hne]
  simp only [correctNameCase, hcam]
  rw [List.infix_cons_iff]
  have h1 : ¬ ['_', '_'] <+: c :: t := by
    rw [List.cons_prefix_cons]; exact fun h => hne h.1.symm
  simp only [h1, false_or]
  rw [← camel_tail t ht]
  constructor
  · rintro ⟨c', t', h, _, h2⟩
    simp only [List.cons.injEq] at h
    rw [h.2]; exact h2
  · intro h; exact ⟨c, _, rfl, hc, h⟩

/-- A suggestion that is still not a valid name. -/
theorem suggested_upper_invalid :
    UpNameToken "My__type".toList ∧ ∀ up, ¬ UpperCamel (correctNameCase up "My__type".toList .upper) := by
  have h1 : UpNameToken "My__type".toList :=
    ⟨'M', "y__type".toList, rfl, by unfold Upper; decide, by unfold Word Lower Upper Digit; decide +kernel⟩
  refine ⟨h1, fun up => ?_⟩
  rw [suggested_upper_valid_partial up _ h1]
  exact fun h => h ⟨['M', 'y'], "type".toList, rfl⟩

/-- Correcting a snake_case name again changes nothing, for any text. -/
theorem snake_case_idempotent (up : Char → Bool) (hu : AsciiUpper up) (s : List Char) :
    toSnakeCase up (toSnakeCase up s) = toSnakeCase up s := by
  rw [toSnake_eq, toSnake_eq]
  exact snakeOut_idem up hu s false true (Or.inr rfl)

/-- A suggestion made for an invalid variable name is never a keyword. -/
theorem suggested_lower_not_keyword (up : Char → Bool) (hu : AsciiUpper up) (name : List Char) (h : NameToken name)
    (hbad : checkNameCase name .lower = false) : correctNameCase up name .lower ∉ keywords := by
  have hex : ∃ d ∈ name.tail, Upper d := by
    obtain ⟨c, t, rfl, hc, ht⟩ := h
    refine Classical.byContradiction fun hno => ?_
    have hs : Snake t := by
      intro d hd
      rcases ht d hd with h | h | h | h
      · exact Or.inl h
      · exact absurd ⟨d, hd, h⟩ hno
      · exact Or.inr (Or.inl h)
      · exact Or.inr (Or.inr h)
    have := (check_name_case_iff (c :: t)).2.1.2 ⟨c, t, Or.inl rfl, hc, hs⟩
    rw [this] at hbad; simp at hbad
  obtain ⟨c, t, rfl, hc, ht⟩ := h
  have hm : '_' ∈ correctNameCase up (c :: t) .lower := by
    simp only [correctNameCase, toSnake_eq, snakeOut]
    rw [if_neg (by simp [sep_not_lower hc])]
    have := snakeOut_underscore up hu t hex false
    simp [this]
  intro hk
  have hall : ∀ k ∈ keywords, '_' ∉ k := by decide +kernel
  exact hall _ hk hm

/-- ASCII tables satisfy the hypothesis on `is_uppercase`. -/
example : AsciiUpper isUpperChar := fun c _ => isUpperChar_iff c
example : correctNameCase isUpperChar "myHTTPName_".toList .lower = "my_h_t_t_p_name".toList := by decide +kernel
example : correctNameCase isUpperChar "My_type".toList .upper = "MyType".toList := by decide +kernel
example : checkNameCase "caseOf".toList .lower = false := by decide +kernel

/-! ## C47 Constructors and types of a module keep distinct names on Erlang -/

/-- Different constructor names are tagged with different atoms. -/
theorem erlang_tags_distinct (up : Char → Bool) (hu : AsciiUpper up) (a b : List Char) (ha : UpperCamel a)
    (hb : UpperCamel b) (h : erlangTag up a = erlangTag up b) : a = b := by
  obtain ⟨c, s, rfl, hc, hs⟩ := ha
  obtain ⟨d, t, rfl, hd, ht⟩ := hb
  simp only [erlangTag, toSnake_eq, snakeOut] at h
  rw [if_neg (show ¬(c = '_' ∨ c = ' ') by simp [sep_not_upper hc]),
    if_neg (show ¬(d = '_' ∨ d = ' ') by simp [sep_not_upper hd])] at h
  simp only [Bool.and_false, Bool.false_eq_true, if_false, List.nil_append, List.cons.injEq] at h
  have e1 := toLower_ascii c hc
  have e2 := toLower_ascii d hd
  rw [h.1] at e1
  rw [char_ext (show c.toNat = d.toNat by omega), snakeOut_inj up hu s t hs ht h.2]

/-- Different type names get different Erlang type names. -/
theorem erlang_type_names_distinct (up : Char → Bool) (hu : AsciiUpper up) (a b : List Char) (ha : UpperCamel a)
    (hb : UpperCamel b) (h : erlangTypeName up a = erlangTypeName up b) : a = b := by
  apply erlang_tags_distinct up hu a b ha hb
  show toSnakeCase up a = toSnakeCase up b
  have la : (toSnakeCase up a).getLast? ≠ some '_' := by rw [toSnake_eq]; exact snakeOut_last _ _ _ _
  have lb : (toSnakeCase up b).getLast? ≠ some '_' := by rw [toSnake_eq]; exact snakeOut_last _ _ _ _
  simp only [erlangTypeName, erlSafeTypeName] at h
  split at h <;> split at h
  · exact List.append_cancel_right h
  · rw [← h] at lb; simp at lb
  · rw [h] at la; simp at la
  · exact h

/-- The Erlang name of a type is never one of the type names Erlang predefines. -/
theorem erlang_type_name_not_builtin (up : Char → Bool) (name : List Char) :
    ∀ t ∈ erlangBuiltinTypes, erlangTypeName up name ≠ t.toList := by
  have hsub : ∀ t ∈ erlangBuiltinTypes, t.toList ∈ erlangTypeNames := by decide +kernel
  have hlast : ∀ t ∈ erlangBuiltinTypes, t.toList.getLast? ≠ some '_' := by decide +kernel
  intro t ht h
  simp only [erlangTypeName, erlSafeTypeName] at h
  split at h
  · have := hlast t ht
    rw [← h] at this; simp at this
  · rename_i hn
    exact hn (h ▸ hsub t ht)

example : erlangTypeName isUpperChar "NonNegInteger".toList = "non_neg_integer_".toList := by decide +kernel
example : UpperCamel "NonNegInteger".toList :=
  (validUpname_iff _).1 (by decide +kernel)

end Verif.Strings
