import Verif.TypeText.Spec
import Verif.Lexer.Complete

/-!
# The tokens of the text of a type
-/
namespace Verif.TypeText
open Lexer Lexer.Spec

section
variable {eof p : Nat}

/-- The tokens and the error of the text that is left. -/
def Left (eof p : Nat) (s : List Char) : List Token × Option LexicalError :=
  ((Iter.mk (View eof p s) []).collect.1.map (·.token), (Iter.mk (View eof p s) []).collect.2)

/-- The text `t` is read as `ks` when `rest` follows. -/
def Lexes (eof : Nat) (t : List Char) (ks : List Token) (rest : List Char) : Prop :=
  ∀ p, Ends eof p (t ++ rest) →
    Ends eof (p + bytes t) rest ∧
      Left eof p (t ++ rest) = (ks ++ (Left eof (p + bytes t) rest).1, (Left eof (p + bytes t) rest).2)

theorem Lexes.append {t u : List Char} {ks ls : List Token} {rest : List Char} (h1 : Lexes eof t ks (u ++ rest))
    (h2 : Lexes eof u ls rest) : Lexes eof (t ++ u) (ks ++ ls) rest := by
  intro p he
  rw [List.append_assoc] at he ⊢
  obtain ⟨h3, h4⟩ := h1 p he
  obtain ⟨h5, h6⟩ := h2 _ h3
  rw [bytes_append, ← Nat.add_assoc]
  refine ⟨h5, ?_⟩
  rw [h4, h6]
  simp

theorem Lexes.nil {rest : List Char} : Lexes eof [] [] rest := by
  intro p he
  exact ⟨he, rfl⟩

/-- One step of the lexer that gives one token. -/
theorem lexes_token {t rest : List Char} {tok : Token} (hne : tok ≠ .endOfFile)
    (h : ∀ p, Ends eof p (t ++ rest) → Ends eof (p + bytes t) rest ∧
      ∃ a b, consumeNormal (View eof p (t ++ rest)) = .ok ([⟨a, tok, b⟩], View eof (p + bytes t) rest)) :
    Lexes eof t [tok] rest := by
  intro p he
  obtain ⟨h1, a, b, h2⟩ := h p he
  refine ⟨h1, ?_⟩
  have hf : fill (View eof p (t ++ rest)) = .ok ([⟨a, tok, b⟩], View eof (p + bytes t) rest) := by
    rw [fill]
    split
    · rename_i h3; rw [h2] at h3; cases h3
    · rename_i h3
      rw [h2] at h3
      cases h3
      rw [dif_neg (by simp)]
  have hc : (Iter.mk (View eof p (t ++ rest)) []).collect = _ :=
    collect_ok (it' := ⟨View eof (p + bytes t) rest, []⟩) (t := ⟨a, tok, b⟩) (by simp [Iter.next, hf, answer, hne])
  unfold Left
  rw [hc]
  simp

/-- A space is skipped. -/
theorem lexes_space {rest : List Char} : Lexes eof [' '] [] rest := by
  intro p he
  have n1 := next1 (rest := rest) (c := ' ') he (by decide) (by decide)
  have hb : p + bytes [' '] = p + 1 := rfl
  rw [hb]
  refine ⟨n1.2, ?_⟩
  have hs : consumeNormal (View eof p (' ' :: rest)) = .ok ([], View eof (p + 1) rest) := by
    unfold consumeNormal
    rw [view_cons_char0 (by decide)]
    simp only [isUpper, isNameStart, isLower, isNumberStart, isDigit]
    show lexBlank ' ' _ = _
    unfold lexBlank
    rw [if_neg (by decide), n1.1]
  have hf : fill (View eof p (' ' :: rest)) = fill (View eof (p + 1) rest) := by
    rw [fill]
    split
    · rename_i h3; rw [hs] at h3; cases h3
    · rename_i h3
      rw [hs] at h3
      cases h3
      rw [dif_pos rfl]
  unfold Left
  rw [List.singleton_append, collect_congr hf]
  simp

theorem lexes_end (he : Ends eof p []) : Left eof p [] = ([], none) := by
  have := collect_spaced (eof := eof) [] p (by simp) he
  unfold Left
  rw [show (Iter.mk (View eof p []) []).collect = _ from this]
  rfl

/-! ### Symbols -/

theorem bytes_one {c : Char} (h : c.utf8Size = 1) : p + bytes [c] = p + 1 := by simp [bytes, h]

theorem lexes_single {c : Char} {s : Symbol} {rest : List Char}
    (h : c = '(' ∧ s = .leftParen ∨ c = ')' ∧ s = .rightParen ∨ c = ',' ∧ s = .comma ∨ c = '#' ∧ s = .hash) :
    Lexes eof [c] [.symbol s] rest := by
  refine lexes_token (by simp) fun p he => ?_
  rcases h with ⟨rfl, rfl⟩ | ⟨rfl, rfl⟩ | ⟨rfl, rfl⟩ | ⟨rfl, rfl⟩
  all_goals
    simp only [List.singleton_append] at he ⊢
    have n1 := next1 he (by decide) (by decide)
    rw [bytes_one (by decide)]
    refine ⟨n1.2, p, (View eof (p + 1) rest).location0, ?_⟩
    simp only [consumeNormal, view_cons_char0, ne_eq, Char.reduceEq, not_false_eq_true, location_cons, view_cons_char1,
      isUpper, isNameStart, isLower, isNumberStart, isDigit, startsDigit, consumeCharacter, singleSymbol, if_true, if_false,
      eatSingleChar, emit, n1.1, Bool.and_eq_true, decide_eq_true_eq]
    rfl

theorem lexes_arrow {rest : List Char} : Lexes eof "->".toList [.symbol .rArrow] (' ' :: rest) := by
  refine lexes_token (by simp) fun p he => ?_
  have h := symbol_lexed (eof := eof) (p := p) .rArrow (rest := rest) he
  exact ⟨h.2, _, _, h.1⟩

theorem upper_char {c : Char} (h : 'A' ≤ c ∧ c ≤ 'Z') : c ≠ '\r' ∧ c ≠ '.' ∧ ¬isDigit c := by
  have h1 : 65 ≤ c.toNat := h.1
  refine ⟨?_, ?_, ?_⟩
  · rintro rfl
    revert h1
    decide
  · rintro rfl
    revert h1
    decide
  · simp only [isDigit, Bool.and_eq_true, decide_eq_true_eq, not_and]
    intro _ h2
    have h3 : c.toNat ≤ 57 := h2
    omega

theorem lexes_dot {c : Char} {rest : List Char} (hc : 'A' ≤ c ∧ c ≤ 'Z') : Lexes eof ['.'] [.symbol .dot] (c :: rest) := by
  refine lexes_token (by simp) fun p he => ?_
  obtain ⟨h1, h2, h3⟩ := upper_char hc
  simp only [List.singleton_append] at he ⊢
  have n1 := next1 he (by decide) (by decide)
  rw [bytes_one (by decide)]
  refine ⟨n1.2, p, (View eof (p + 1) (c :: rest)).location0, ?_⟩
  simp only [consumeNormal, view_cons_char0, ne_eq, Char.reduceEq, not_false_eq_true, location_cons, view_cons_char1,
    isUpper, isNameStart, isLower, isNumberStart, isDigit, startsDigit, consumeCharacter, singleSymbol, if_true, if_false,
    emit, n1.1, Option.some.injEq, Bool.and_eq_true, decide_eq_true_eq, lexDot, h1, h2]
  rw [maybeLexDotAccess_done (view_cons_char0 h1) h3]
  rfl

/-! ### Names -/

/-- The text that may follow a name: it does not go on with the name. -/
def Stop (rest : List Char) : Prop := ∀ c, rest.head? = some c → c ≠ '\r' ∧ c ≠ '-' ∧ ¬NameChar c

theorem stop_char0 {rest : List Char} (h : Stop rest) : (View eof p rest).char0 = rest.head? := by
  cases rest with
  | nil => rfl
  | cons c r => exact view_cons_char0 (h c rfl).1

theorem nameRun_stop {rest : List Char} (h : Stop rest) : nameRun (View eof p rest) = ([], View eof p rest) := by
  cases rest with
  | nil =>
    rw [nameRun]
    split
    · rename_i h0
      cases h0
    · rfl
  | cons c r => exact nameRun_done (view_cons_char0 (h c rfl).1) fun hc => (h c rfl).2.2 (isNameContinuation_iff.1 hc)

theorem nameRun_name {t rest : List Char} (hs : Stop rest) (h : ∀ d ∈ t, NameChar d) (he : Ends eof p (t ++ rest)) :
    nameRun (View eof p (t ++ rest)) = (t, View eof (p + bytes t) rest) ∧ Ends eof (p + bytes t) rest := by
  induction t generalizing p with
  | nil => exact ⟨nameRun_stop hs, he⟩
  | cons d t ih =>
    rw [List.cons_append] at he
    have h1 := h d (by simp)
    have h2 := nameChar_plain h1
    have h3 := nameChar_ascii h1
    have h4 := next1 he h2.1 h3.1
    obtain ⟨h5, h6⟩ := ih (fun x hx => h x (by simp [hx])) h4.2
    have hq : p + 1 + bytes t = p + bytes (d :: t) := by rw [bytes_cons, h3.1]; omega
    rw [hq] at h5 h6
    refine ⟨?_, h6⟩
    rw [List.cons_append, nameRun_more (view_cons_char0 h2.1) (isNameContinuation_iff.2 h1), h4.1, h5]

theorem lexes_word {t rest : List Char} {c : Char} (hs : Stop rest) (hc : t.head? = some c) (hn : isNameStart c)
    (h : ∀ d ∈ t, NameChar d) (hk : nameToken t ≠ .endOfFile) : Lexes eof t [nameToken t] rest := by
  refine lexes_token hk fun p he => ?_
  obtain ⟨h1, h2⟩ := nameRun_name hs h he
  refine ⟨h2, (View eof p (t ++ rest)).location0, (View eof (p + bytes t) rest).location0, ?_⟩
  cases t with
  | nil => cases hc
  | cons d t =>
    cases hc
    have h3 := nameChar_plain (h c (by simp))
    have hu : ¬isUpper c := by
      simp only [isNameStart, Bool.or_eq_true, beq_iff_eq] at hn
      rcases hn with hn | hn
      · subst hn; decide
      · exact lower_not_upper hn
    unfold consumeNormal
    rw [List.cons_append, view_cons_char0 h3.1]
    simp only
    rw [if_neg hu, if_pos hn]
    unfold lexName
    rw [← List.cons_append, h1]
    unfold checkForMinus
    rw [if_neg]
    rintro ⟨h4, _⟩
    rw [stop_char0 hs] at h4
    exact (hs _ h4).2.1 rfl

theorem lexes_name {n rest : List Char} (hs : Stop rest) (h : Reads (.name n) n) : Lexes eof n [.name n] rest := by
  obtain ⟨_, ⟨c, r, rfl, h1, h2⟩, h3, h4⟩ := h
  have hl : isLower c := by simp [isLower, h1, h2]
  have hu : c ≠ '_' := by
    rintro rfl
    revert h1
    decide
  have hk : nameToken (c :: r) = .name (c :: r) := by
    unfold nameToken
    rw [not_keyword h4]
    simp [hu]
  rw [← hk]
  exact lexes_word (c := c) hs rfl (by simp [isNameStart, hl]) h3 (by rw [hk]; simp)

theorem lexes_fn {rest : List Char} (hs : Stop rest) : Lexes eof "fn".toList [.keyword .fn_] rest :=
  lexes_word (c := 'f') hs rfl (by decide) (keyword_chars .fn_) (by decide)

theorem lexes_upName {n rest : List Char} (hs : Stop rest) (h : Reads (.upName n) n) : Lexes eof n [.upName n] rest := by
  refine lexes_token (by simp) fun p he => ?_
  obtain ⟨_, ⟨c, r, rfl, h1, h2⟩, h3⟩ := h
  obtain ⟨h4, h5⟩ := nameRun_name hs h3 he
  refine ⟨h5, (View eof p (c :: r ++ rest)).location0, (View eof (p + bytes (c :: r)) rest).location0, ?_⟩
  have h6 := nameChar_plain (h3 c (by simp))
  have hu : isUpper c := by simp [isUpper, h1, h2]
  have hk : stringToKeyword (c :: r) = none := by
    cases hk : stringToKeyword (c :: r) with
    | none => rfl
    | some k =>
      obtain ⟨d, r', h7, h8⟩ := keyword_lower k
      rw [← stringToKeyword_some hk] at h7
      cases h7
      exact absurd hu h8
  unfold consumeNormal
  rw [List.cons_append, view_cons_char0 h6.1]
  simp only
  rw [if_pos hu]
  unfold lexUpname upNameToken
  rw [← List.cons_append, h4, hk]

end

/-! ### Types -/

mutual
/-- The text of a type, given how named types and variables are written. -/
def textOf (nt : Name → Name → Option Name × Name) (nv : Nat → Name) : Ty → List Char
  | .named m t arguments =>
    writtenName (nt m t) ++ (if arguments.isEmpty then [] else '(' :: textsOf nt nv arguments ++ [')'])
  | .fn arguments ret => "fn(".toList ++ textsOf nt nv arguments ++ ") -> ".toList ++ textOf nt nv ret
  | .tuple elements => "#(".toList ++ textsOf nt nv elements ++ [')']
  | .var id => nv id
  | .link t => textOf nt nv t

/-- The text of several types. -/
def textsOf (nt : Name → Name → Option Name × Name) (nv : Nat → Name) : List Ty → List Char
  | [] => []
  | [t] => textOf nt nv t
  | t :: u :: ts => textOf nt nv t ++ ", ".toList ++ textsOf nt nv (u :: ts)
end

/-- The tokens of a type's name. -/
def nameTokens (parts : Option Name × Name) : List Token :=
  match parts.1 with
  | some m => [.name m, .symbol .dot, .upName parts.2]
  | none => [.upName parts.2]

mutual
/-- The tokens of a type. -/
def tokensOf (nt : Name → Name → Option Name × Name) (nv : Nat → Name) : Ty → List Token
  | .named m t arguments =>
    nameTokens (nt m t) ++
      (if arguments.isEmpty then [] else .symbol .leftParen :: tokenssOf nt nv arguments ++ [.symbol .rightParen])
  | .fn arguments ret =>
    [.keyword .fn_, .symbol .leftParen] ++ tokenssOf nt nv arguments ++ [.symbol .rightParen, .symbol .rArrow] ++
      tokensOf nt nv ret
  | .tuple elements => [.symbol .hash, .symbol .leftParen] ++ tokenssOf nt nv elements ++ [.symbol .rightParen]
  | .var id => [.name (nv id)]
  | .link t => tokensOf nt nv t

/-- The tokens of several types. -/
def tokenssOf (nt : Name → Name → Option Name × Name) (nv : Nat → Name) : List Ty → List Token
  | [] => []
  | [t] => tokensOf nt nv t
  | t :: u :: ts => tokensOf nt nv t ++ [.symbol .comma] ++ tokenssOf nt nv (u :: ts)
end

/-- The parts of a type's name are written as names. -/
def PartsOk (parts : Option Name × Name) : Prop :=
  (∀ m, parts.1 = some m → Reads (.name m) m) ∧ Reads (.upName parts.2) parts.2

section
variable {eof : Nat} {nt : Name → Name → Option Name × Name} {nv : Nat → Name}

theorem stop_cons {c : Char} {rest : List Char} (h : c = '(' ∨ c = ')' ∨ c = ',' ∨ c = '.' ∨ c = ' ') : Stop (c :: rest) := by
  intro d hd
  cases hd
  unfold NameChar
  rcases h with rfl | rfl | rfl | rfl | rfl <;> decide

theorem lexes_parts {parts : Option Name × Name} {rest : List Char} (hs : Stop rest) (h : PartsOk parts) :
    Lexes eof (writtenName parts) (nameTokens parts) rest := by
  obtain ⟨q, t⟩ := parts
  cases q with
  | none => exact lexes_upName hs h.2
  | some m =>
    obtain ⟨_, ⟨c, r, ht, hc⟩, _⟩ := h.2
    have h1 : Lexes eof m [.name m] (('.' :: t) ++ rest) := lexes_name (stop_cons (by simp)) (h.1 m rfl)
    have h2 : Lexes eof ['.'] [.symbol .dot] (t ++ rest) := by
      simp only at ht
      rw [ht]
      exact lexes_dot hc
    exact h1.append (h2.append (lexes_upName hs h.2))

mutual
theorem lexes_type {rest : List Char} (hs : Stop rest) : (t : Ty) → (t.All fun m n _ => PartsOk (nt m n)) →
    (∀ i ∈ t.vars, Reads (.name (nv i)) (nv i)) → Lexes eof (textOf nt nv t) (tokensOf nt nv t) rest
  | .named m t arguments, ha, hv => by
    simp only [Ty.All, Ty.vars] at ha hv
    unfold textOf tokensOf
    cases arguments with
    | nil =>
      simp only [List.isEmpty_nil, if_true, List.append_nil]
      exact lexes_parts hs ha.1
    | cons a as =>
      simp only [List.isEmpty_cons, Bool.false_eq_true, if_false]
      refine Lexes.append (lexes_parts (stop_cons (by simp)) ha.1) ?_
      exact Lexes.append (t := ['(']) (ks := [.symbol .leftParen]) (lexes_single (by simp))
        (Lexes.append (lexes_types (stop_cons (by simp)) (a :: as) ha.2 hv) (lexes_single (by simp)))
  | .fn arguments ret, ha, hv => by
    simp only [Ty.All, Ty.vars, List.mem_append] at ha hv
    unfold textOf tokensOf
    have h1 : Lexes eof "fn(".toList [.keyword .fn_, .symbol .leftParen]
        (textsOf nt nv arguments ++ (") -> ".toList ++ (textOf nt nv ret ++ rest))) :=
      Lexes.append (t := "fn".toList) (u := ['(']) (lexes_fn (stop_cons (by simp))) (lexes_single (by simp))
    have h2 : Lexes eof ") -> ".toList [.symbol .rightParen, .symbol .rArrow] (textOf nt nv ret ++ rest) :=
      Lexes.append (t := [')']) (u := " -> ".toList) (ks := [.symbol .rightParen]) (lexes_single (by simp))
        (Lexes.append (t := [' ']) (u := "-> ".toList) (ks := []) lexes_space
          (Lexes.append (t := "->".toList) (u := [' ']) (ks := [.symbol .rArrow]) (ls := []) lexes_arrow lexes_space))
    simp only [List.append_assoc]
    refine Lexes.append (by simpa using h1) (Lexes.append (lexes_types ?_ arguments ha.1 fun i hi => hv i (.inl hi))
      (Lexes.append h2 (lexes_type hs ret ha.2 fun i hi => hv i (.inr hi))))
    exact stop_cons (c := ')') (by simp)
  | .tuple elements, ha, hv => by
    simp only [Ty.All, Ty.vars] at ha hv
    unfold textOf tokensOf
    have h1 : Lexes eof "#(".toList [.symbol .hash, .symbol .leftParen] (textsOf nt nv elements ++ ([')'] ++ rest)) :=
      Lexes.append (t := ['#']) (u := ['(']) (ks := [.symbol .hash]) (lexes_single (by simp)) (lexes_single (by simp))
    simp only [List.append_assoc]
    refine Lexes.append (by simpa using h1)
      (Lexes.append (lexes_types (stop_cons (by simp)) elements ha hv) (lexes_single (by simp)))
  | .var id, _, hv => lexes_name hs (hv id (by simp [Ty.vars]))
  | .link t, ha, hv => by
    unfold textOf tokensOf
    exact lexes_type hs t ha hv

theorem lexes_types {rest : List Char} (hs : Stop rest) : (ts : List Ty) → AllIn (fun m n _ => PartsOk (nt m n)) ts →
    (∀ i ∈ varsAll ts, Reads (.name (nv i)) (nv i)) → Lexes eof (textsOf nt nv ts) (tokenssOf nt nv ts) rest
  | [], _, _ => Lexes.nil
  | [t], ha, hv => by
    unfold textsOf tokenssOf
    exact lexes_type hs t ha.1 fun i hi => hv i (by simp [varsAll, hi])
  | t :: u :: ts, ha, hv => by
    unfold textsOf tokenssOf
    have h1 : Lexes eof ", ".toList [.symbol .comma] (textsOf nt nv (u :: ts) ++ rest) :=
      Lexes.append (t := [',']) (u := [' ']) (ks := [.symbol .comma]) (ls := []) (lexes_single (by simp)) lexes_space
    simp only [List.append_assoc]
    refine Lexes.append (lexes_type ?_ t ha.1 fun i hi => hv i (by simp [varsAll, hi]))
      (Lexes.append h1 (lexes_types hs (u :: ts) ha.2 fun i hi => hv i (by rw [varsAll]; simp [hi])))
    exact stop_cons (c := ',') (by simp)
end

end
end Verif.TypeText
