import Verif.ErlText.Lex
import Verif.ErlText.Toks

/-! # The tokens of the text of a term -/

namespace Verif.ErlText

open Read

/-- A text is scanned as some tokens, whatever follows. -/
def Lexes (x : Text) (tx : List Tok) : Prop :=
  ∀ r ts, good r = true → Lex r ts → Lex (x ++ r) (tx ++ ts)

theorem lex_words {w : String} {t : Tok} {r : List Char} {ts : List Tok} (hw : wordOrAtom w.toList = t)
    (hs : ∃ c n, w.toList = c :: n ∧ isSmall c = true ∧ n.all isNameChar = true) (hb : bound r = true) (h : Lex r ts) :
    Lex (w.toList ++ r) (t :: ts) := by
  obtain ⟨c, n, he, hc, hn⟩ := hs
  rw [← hw, he]
  exact lex_word hc hn hb h

theorem lits (w : String) (hw : (match w.toList with | c :: n => isSmall c && n.all isNameChar | [] => false) = true) :
    ∃ c n, w.toList = c :: n ∧ isSmall c = true ∧ n.all isNameChar = true := by
  split at hw
  · rename_i c n he
    simp only [Bool.and_eq_true] at hw
    exact ⟨c, n, he, hw.1, hw.2⟩
  · cases hw

theorem lexes_rest {x : Text} {tx : List Tok} (h : Lexes x tx) (c : Ctx) : Lexes (c.rest x) (c.restToks tx) := by
  intro r ts hr hl
  unfold Ctx.rest Ctx.restToks
  split
  · simp only [List.append_assoc, List.cons_append, List.nil_append]
    have := h ("]".toList ++ r) (.rbrack :: ts) rfl (by simpa using lex_rbrack hl)
    simpa using lex_space (lex_bar this)
  · exact h r ts hr hl

theorem lexes_paren {x : Text} {tx : List Tok} (h : Lexes x tx) (b : Bool) : Lexes (paren b x) (parenToks b tx) := by
  intro r ts hr hl
  unfold paren parenToks
  split
  · have := h (")".toList ++ r) (.rparen :: ts) rfl (by simpa using lex_rparen hl)
    simpa using lex_lparen this
  · exact h r ts hr hl

theorem good_comma (r : Text) : good (", ".toList ++ r) = true := by simp [good, goodChar]

theorem lexes_var {n : Text} (h : VarName n) : Lexes n [.var n] := fun _ _ hr hl => lex_var h (good_bound hr) hl

theorem lexes_discard : Lexes ['_'] [.var ['_']] :=
  fun _ _ hr hl => lex_var ⟨'_', [], rfl, rfl, rfl⟩ (good_bound hr) hl

theorem digit_ne {c : Char} (h : Read.isDigit c = true) : c ≠ '-' ∧ c ≠ '>' ∧ c ≠ '+' ∧ c ≠ ':' ∧ c ≠ '=' := by
  refine ⟨?_, ?_, ?_, ?_, ?_⟩ <;> (rintro rfl; revert h; decide)

theorem lexes_int (n : Int) : Lexes (showInt n) (intToks n) := by
  intro r ts hr hl
  cases n with
  | ofNat n => exact lex_nat n hr hl
  | negSucc n =>
    have := lex_nat (n + 1) hr hl
    obtain ⟨c, x, he, hc⟩ := digits_head r (showNat_Digits (n + 1))
    simp only [showInt, intToks, List.cons_append, List.nil_append]
    rw [he] at this ⊢
    exact lex_minus (digit_ne hc).1 (digit_ne hc).2.1 this

theorem lexes_float (s : Sign) {w f : Text} (hw : Digits w) (hf : Digits f) :
    Lexes (s.text ++ w ++ ".".toList ++ f) (s.toks ++ [.float w f]) := by
  intro r ts hr hl
  have := lex_float hw hf hr hl
  obtain ⟨c, x, he, hc⟩ := digits_head ('.' :: f ++ r) hw
  simp only [List.append_assoc] at this
  rw [he] at this
  have hd := digit_ne hc
  cases s with
  | none => simpa [Sign.text, Sign.toks, ← he] using this
  | plus => simpa [Sign.text, Sign.toks, ← he] using lex_plus hd.2.2.1 this
  | minus => simpa [Sign.text, Sign.toks, ← he] using lex_minus hd.1 hd.2.1 this

theorem lexes_string {s : Text} (h : wellQuoted s = true) (v : Bool) :
    Lexes ((if v then "\"".toList else "~\"".toList) ++ Strings.escapeErlang 0 s ++ "\"".toList)
      [if v then .string (Strings.escapeErlang 0 s) else .sigil (Strings.escapeErlang 0 s)] := by
  intro r ts hr hl
  have hw := wellQuoted_escape s h
  cases v with
  | true => simpa using lex_string hw hl
  | false => simpa using lex_sigil hw (good_bound hr) hl

theorem lexes_atom {n : Text} (h : AtomText n) : Lexes (quoteAtomName n) [.atom n] :=
  fun _ _ hr hl => lex_atom h (good_bound hr) hl

theorem lexes_nil (c : Ctx) : Lexes (if c.tail then "]".toList else "[]".toList)
    (if c.tail then [.rbrack] else [.lbrack, .rbrack]) := by
  intro r ts hr hl
  split
  · simpa using lex_rbrack hl
  · simpa using lex_lbrack (lex_rbrack hl)

/-- Characters that may follow a term: those of the separators and ends of the printed text. -/
theorem good_textAll (k : Kind) (rest : Text) (i : Nat) (ts : List Term) (r : Text)
    (h : ∀ x, good (rest ++ x) = true) (hr : good r = true) : good (textAll k rest rest i ts ++ r) = true := by
  cases ts with
  | nil => simpa [textAll] using hr
  | cons t ts => simp only [textAll, List.append_assoc]; exact h _

theorem good_spec (specs : List Spec) (b : Bool) (r : Text) (hr : good r = true) : good (specsText b specs ++ r) = true := by
  cases specs with
  | nil => simpa [specsText] using hr
  | cons s ss => cases b <;> simp [specsText, good, goodChar]

theorem good_segment (k : Kind) (i : Nat) (ss : List Segment) (r : Text) (hr : good r = true) :
    good (segmentText k false i ss ++ r) = true := by
  match ss with
  | [] => simpa [segmentText] using hr
  | .mk v none sp :: ss => simp [segmentText, commaFirst, good, goodChar]
  | .mk v (some s) sp :: ss => simp [segmentText, commaFirst, good, goodChar]

theorem good_field (i : Nat) (fs : List Field) (r : Text) (hr : good r = true) :
    good (fieldText false i fs ++ r) = true := by
  match fs with
  | [] => simpa [fieldText] using hr
  | .mk k v :: fs => simp [fieldText, lineFirst, good, goodChar]

theorem good_clause (f : Bool) (i : Nat) (cs : List Clause) (r : Text) (hr : good r = true) :
    good (clauseText f i cs ++ r) = true := by
  match cs with
  | [] => simpa [clauseText] using hr
  | .mk p none b :: fs => cases f <;> simp [clauseText, clauseFirst, good, goodChar]
  | .mk p (some g) b :: fs => cases f <;> simp [clauseText, clauseFirst, good, goodChar]

theorem good_endLine (i : Nat) (x r : Text) : good (endLine i x ++ r) = true := by simp [endLine, good, goodChar]

theorem good_statement (f : Bool) (i : Nat) (x : Text) : good (statementStart f i ++ x) = true := by
  cases f <;> simp [statementStart, good, goodChar]

theorem lex_endLine {i : Nat} {x r : Text} {ts : List Tok} (h : Lex (x ++ r) ts) : Lex (endLine i x ++ r) ts := by
  simp only [endLine, List.append_assoc]
  simpa using lex_newline (lex_spaces i h)

theorem lex_end {i : Nat} {r : Text} {ts : List Tok} (hr : good r = true) (h : Lex r ts) :
    Lex (endLine i "end".toList ++ r) (.word .end_ :: ts) :=
  lex_endLine (lex_words (by decide) (lits "end" (by decide)) (good_bound hr) h)

theorem lex_statement {i : Nat} {f : Bool} {r : Text} {ts : List Tok} (h : Lex r ts) :
    Lex (statementStart f i ++ r) (sepToks .comma f ++ ts) := by
  simp only [statementStart, List.append_assoc]
  cases f
  · simpa [sepToks] using lex_comma (lex_newline (lex_spaces i h))
  · simpa [sepToks] using lex_newline (lex_spaces i h)

theorem lex_commaFirst {f : Bool} {r : Text} {ts : List Tok} (h : Lex r ts) :
    Lex (commaFirst f ++ r) (sepToks .comma f ++ ts) := by
  cases f
  · simpa [sepToks, commaFirst] using lex_comma (lex_space h)
  · simpa [sepToks, commaFirst] using h

theorem lex_lineFirst {f : Bool} {r : Text} {ts : List Tok} (h : Lex r ts) :
    Lex (lineFirst f ++ r) (sepToks .comma f ++ ts) := by
  cases f
  · simpa [sepToks, lineFirst] using lex_comma (lex_newline h)
  · simpa [sepToks, lineFirst] using lex_newline h

/-- The start of a clause: after `of`, or after a semicolon. -/
theorem lex_clauseFirst {f : Bool} {r : Text} {ts : List Tok} (h : Lex r ts) :
    Lex (clauseFirst f ++ r) ((if f then [.word .of] else [.semi]) ++ ts) := by
  cases f
  · simpa [clauseFirst] using lex_semi (lex_newline (lex_newline h))
  · have := lex_words (w := "of") (t := .word .of) (by decide) (lits "of" (by decide)) (r := '\n' :: r) rfl (lex_newline h)
    simpa [clauseFirst] using lex_space this

theorem lex_arrowText {r : Text} {ts : List Tok} (h : Lex r ts) : Lex (" ->".toList ++ r) (.arrow :: ts) := by
  simpa using lex_space (lex_arrow h)

theorem lex_parenArrow {r : Text} {ts : List Tok} (h : Lex r ts) :
    Lex (") ->".toList ++ r) (.rparen :: .arrow :: ts) := by
  simpa using lex_rparen (lex_space (lex_arrow h))

theorem lex_whenText {r : Text} {ts : List Tok} (h : Lex r ts) : Lex (" when ".toList ++ r) (.word .when :: ts) := by
  have := lex_words (w := "when") (t := .word .when) (by decide) (lits "when" (by decide)) (r := ' ' :: r) rfl (lex_space h)
  simpa using lex_space this

theorem lex_caseText {r : Text} {ts : List Tok} (h : Lex r ts) : Lex ("case ".toList ++ r) (.word .case_ :: ts) := by
  simpa using lex_words (w := "case") (by decide) (lits "case" (by decide)) (r := ' ' :: r) rfl (lex_space h)

theorem lex_funText {r : Text} {ts : List Tok} (h : Lex r ts) : Lex ("fun ".toList ++ r) (.word .fun_ :: ts) := by
  simpa using lex_words (w := "fun") (by decide) (lits "fun" (by decide)) (r := ' ' :: r) rfl (lex_space h)

theorem lex_funParen {r : Text} {ts : List Tok} (h : Lex r ts) :
    Lex ("fun(".toList ++ r) (.word .fun_ :: .lparen :: ts) := by
  simpa using lex_words (w := "fun") (by decide) (lits "fun" (by decide)) (r := '(' :: r) rfl (lex_lparen h)

theorem lex_atomColon {n f r : Text} {ts : List Tok} (h : AtomText n) (hl : Lex (quoteAtomName f ++ r) ts) :
    Lex (quoteAtomName n ++ (":".toList ++ (quoteAtomName f ++ r))) (.atom n :: .colon :: ts) := by
  obtain ⟨c, x, he, hc⟩ := atom_head f r
  rw [he] at hl ⊢
  have hne : c ≠ ':' ∧ c ≠ '=' := by
    rcases hc with rfl | hc
    · decide
    · constructor <;> (rintro rfl; revert hc; decide)
  exact lex_atom h (by simp [bound, isNameChar, isSmall, isCapital, Read.isDigit])
    (by simpa using lex_colon hne.1 hne.2 hl)

theorem lex_atomArity {n : Text} (a : Nat) (h : AtomText n) :
    Lexes (quoteAtomName n ++ "/".toList ++ Decimal.showNat a) [.atom n, .op .slash, .int a] := by
  intro r ts hr hl
  have := lex_nat a hr hl
  obtain ⟨c, x, he, hc⟩ := digits_head r (showNat_Digits a)
  simp only [List.append_assoc]
  rw [he] at this ⊢
  exact lex_atom h (by simp [bound, isNameChar, isSmall, isCapital, Read.isDigit])
    (by simpa using lex_slash (digit_ne hc).2.2.2.2 this)

theorem lexes_parameters : ∀ (ns : List Text), (∀ n ∈ ns, VarName n) → Lexes (commaSeparated ns) (parameterToks ns)
  | [], _ => fun _ _ _ hl => hl
  | [n], h => lexes_var (h n (by simp))
  | n :: m :: ns, h => by
    intro r ts hr hl
    have ih := lexes_parameters (m :: ns) (fun x hx => h x (by simp at hx ⊢; exact Or.inr hx)) r ts hr hl
    simp only [commaSeparated, parameterToks, List.append_assoc, List.cons_append]
    exact lexes_var (h n (by simp)) _ _ (good_comma _) (by simpa using lex_comma (lex_space ih))

theorem lex_specWord (w : String) {r : Text} {ts : List Tok} (hw : wordOrAtom w.toList = .atom w.toList)
    (hs : ∃ c n, w.toList = c :: n ∧ isSmall c = true ∧ n.all isNameChar = true) (hr : good r = true) (h : Lex r ts) :
    Lex (w.toList ++ r) ([.atom w.toList] ++ ts) := lex_words hw hs (good_bound hr) h

theorem unit_text (n : Nat) : Spec.text (.unit n) = "unit".toList ++ ':' :: Decimal.showNat n := by
  have h1 : "unit:".toList = ['u', 'n', 'i', 't', ':'] := by simp
  have h2 : "unit".toList = ['u', 'n', 'i', 't'] := by simp
  have : Spec.text (.unit n) = "unit:".toList ++ Decimal.showNat n := rfl
  rw [this, h1, h2]; rfl

theorem lexes_spec (s : Spec) : Lexes s.text s.toks := by
  intro r ts hr hl
  cases s with
  | unit n =>
    have := lex_nat n hr hl
    obtain ⟨c, x, he, hc⟩ := digits_head r (showNat_Digits n)
    rw [unit_text, List.append_assoc, List.cons_append]
    rw [he] at this ⊢
    exact lex_words (w := "unit") (t := .atom "unit".toList) (by decide) (lits "unit" (by decide)) rfl
      (lex_colon (digit_ne hc).2.2.2.1 (digit_ne hc).2.2.2.2 this)
  | utf8 => exact lex_specWord "utf8" (by decide) (lits _ (by decide)) hr hl
  | utf16 => exact lex_specWord "utf16" (by decide) (lits _ (by decide)) hr hl
  | utf32 => exact lex_specWord "utf32" (by decide) (lits _ (by decide)) hr hl
  | integer => exact lex_specWord "integer" (by decide) (lits _ (by decide)) hr hl
  | float => exact lex_specWord "float" (by decide) (lits _ (by decide)) hr hl
  | binary => exact lex_specWord "binary" (by decide) (lits _ (by decide)) hr hl
  | bitstring => exact lex_specWord "bitstring" (by decide) (lits _ (by decide)) hr hl
  | signed => exact lex_specWord "signed" (by decide) (lits _ (by decide)) hr hl
  | unsigned => exact lex_specWord "unsigned" (by decide) (lits _ (by decide)) hr hl
  | little => exact lex_specWord "little" (by decide) (lits _ (by decide)) hr hl
  | big => exact lex_specWord "big" (by decide) (lits _ (by decide)) hr hl
  | native => exact lex_specWord "native" (by decide) (lits _ (by decide)) hr hl

theorem spec_small (s : Spec) : ∃ c x, s.text = c :: x ∧ isSmall c = true := by
  have key : ∀ w : String, (∃ c n, w.toList = c :: n ∧ isSmall c = true ∧ n.all isNameChar = true) →
      ∃ c x, w.toList = c :: x ∧ isSmall c = true := fun w ⟨c, n, h1, h2, _⟩ => ⟨c, n, h1, h2⟩
  cases s with
  | unit n =>
    have h2 : "unit".toList = ['u', 'n', 'i', 't'] := by simp
    exact ⟨'u', ['n', 'i', 't'] ++ ':' :: Decimal.showNat n, by rw [unit_text, h2]; rfl, rfl⟩
  | utf8 => exact key "utf8" (lits _ (by decide))
  | utf16 => exact key "utf16" (lits _ (by decide))
  | utf32 => exact key "utf32" (lits _ (by decide))
  | integer => exact key "integer" (lits _ (by decide))
  | float => exact key "float" (lits _ (by decide))
  | binary => exact key "binary" (lits _ (by decide))
  | bitstring => exact key "bitstring" (lits _ (by decide))
  | signed => exact key "signed" (lits _ (by decide))
  | unsigned => exact key "unsigned" (lits _ (by decide))
  | little => exact key "little" (lits _ (by decide))
  | big => exact key "big" (lits _ (by decide))
  | native => exact key "native" (lits _ (by decide))

theorem spec_head (s : Spec) (r : Text) : ∃ c x, s.text ++ r = c :: x ∧ c ≠ '-' ∧ c ≠ '>' ∧ c ≠ '=' := by
  obtain ⟨c, x, he, hc⟩ := spec_small s
  refine ⟨c, x ++ r, by rw [he]; rfl, ?_, ?_, ?_⟩ <;> (rintro rfl; revert hc; decide)

theorem lexes_specs : ∀ (specs : List Spec) (b : Bool), Lexes (specsText b specs) (specToks b specs)
  | [], _ => fun _ _ _ hl => hl
  | s :: ss, b => by
    intro r ts hr hl
    have ih := lexes_specs ss false r ts hr hl
    have := lexes_spec s _ _ (good_spec ss false r hr) ih
    obtain ⟨c, x, he, hc⟩ := spec_head s (specsText false ss ++ r)
    simp only [specsText, specToks, List.append_assoc, List.cons_append]
    rw [he] at this ⊢
    cases b
    · simpa using lex_minus hc.1 hc.2.1 this
    · simpa using lex_slash hc.2.2 this

theorem var_head {n : Text} (h : VarName n) (r : Text) : ∃ c x, n ++ r = c :: x ∧ c ≠ ':' ∧ c ≠ '=' := by
  obtain ⟨c, cs, rfl, hc, _⟩ := h
  refine ⟨c, cs ++ r, rfl, ?_, ?_⟩ <;> (rintro rfl; revert hc; decide)

/-- The size of a segment does not start with a colon or an equals sign. -/
theorem size_head (size : Term) (i : Nat) (r : Text) (ho : size.Ok .expression) (hs : size.sizeLike = true) :
    ∃ c x, paren (!size.bare .expression) (size.text .expression plain i) ++ r = c :: x ∧ c ≠ ':' ∧ c ≠ '=' := by
  cases size with
  | var n =>
    simp only [Term.Ok] at ho
    simpa [paren, Term.bare, Term.text, Ctx.rest, plain] using var_head ho r
  | discard => simp [Term.Ok] at ho
  | int n =>
    cases n with
    | ofNat n =>
      obtain ⟨c, x, he, hc⟩ := digits_head r (showNat_Digits n)
      have hd := digit_ne hc
      exact ⟨c, x, by simpa [paren, Term.bare, Term.text, Ctx.rest, plain, showInt] using he, hd.2.2.2.1, hd.2.2.2.2⟩
    | negSucc n => simp [Term.sizeLike] at hs
  | float s w f =>
    simp only [Term.Ok] at ho
    simp only [Term.sizeLike, decide_eq_true_eq] at hs
    subst hs
    obtain ⟨c, x, he, hc⟩ := digits_head ('.' :: f ++ r) ho.1
    have hd := digit_ne hc
    exact ⟨c, x, by simpa [paren, Term.bare, Term.text, Ctx.rest, plain, Sign.text] using he, hd.2.2.2.1, hd.2.2.2.2⟩
  | string s => simp [paren, Term.bare, Term.text, Ctx.rest, plain]
  | bits ss => simp [paren, Term.bare, Term.text, Ctx.rest, plain]
  | _ => simp [paren, Term.bare]

theorem lex_op (op : BinOp) {r : Text} {ts : List Tok} (h : Lex r ts) :
    Lex (" ".toList ++ op.text ++ " ".toList ++ r) (.op op.op :: ts) := by
  have hs := lex_space h
  have key : Lex (op.text ++ ' ' :: r) (.op op.op :: ts) := by
    cases op with
    | orelse => exact lex_words (by decide) (lits _ (by decide)) rfl hs
    | andalso => exact lex_words (by decide) (lits _ (by decide)) rfl hs
    | div => exact lex_words (by decide) (lits _ (by decide)) rfl hs
    | rem => exact lex_words (by decide) (lits _ (by decide)) rfl hs
    | _ => simp only [BinOp.text]; exact .tok rfl rfl hs
  simpa using lex_space key

theorem lex_unop (op : UnOp) {r : Text} {ts : List Tok} (h : Lex r ts) :
    Lex (op.text ++ " ".toList ++ r) (.op op.op :: ts) := by
  have hs := lex_space h
  cases op with
  | neg => simpa [UnOp.text, UnOp.op] using lex_minus (by decide) (by decide) hs
  | not => simpa [UnOp.text] using lex_words (w := "not") (by decide) (lits _ (by decide)) (r := ' ' :: r) rfl hs

/-- The separator before each item but the first: its text and its token. -/
def Separates (first rest : Text) : Prop :=
  ∀ (r : Text) (ts : List Tok), Lex r ts → Lex (first ++ r) ts ∧ Lex (rest ++ r) (.comma :: ts)

theorem separates_statement (i : Nat) : Separates (statementStart true i) (statementStart false i) :=
  fun _ _ h => ⟨by simpa [sepToks] using lex_statement (f := true) h, by simpa [sepToks] using lex_statement (f := false) h⟩

theorem separates_comma : Separates [] ", ".toList :=
  fun _ _ h => ⟨h, by simpa using lex_comma (lex_space h)⟩

/-- The items of a list of terms. -/
theorem lex_items (k : Kind) {first rest : Text} (i : Nat) (hs : Separates first rest)
    (hg : ∀ x, good (rest ++ x) = true) : ∀ (ts : List Term),
    (∀ t ∈ ts, ∀ c i, Lexes (t.text k c i) (t.toks k c)) → ∀ (f : Bool), 
    Lexes (textAll k (if f then first else rest) rest i ts) (toksAll k f ts)
  | [], _, f => fun _ _ _ hl => by simpa [textAll, toksAll] using hl
  | t :: ts, h, f => by
    intro r us hr hl
    have ih := lex_items k i hs hg ts (fun t ht => h t (List.mem_cons_of_mem _ ht)) false r us hr hl
    simp only [Bool.false_eq_true, if_false] at ih
    have := h t (by simp) plain i _ _ (good_textAll k rest i ts r hg hr) ih
    simp only [textAll, toksAll, List.append_assoc]
    cases f
    · simpa [sepToks] using (hs _ _ this).2
    · simpa [sepToks] using (hs _ _ this).1

theorem lex_body (i : Nat) {ts : List Term} (h : ∀ t ∈ ts, ∀ c i, Lexes (t.text .expression c i) (t.toks .expression c)) :
    Lexes (textAll .expression (statementStart true i) (statementStart false i) i ts) (toksAll .expression true ts) := by
  simpa using lex_items .expression i (separates_statement i) (good_statement false i) ts h true

theorem good_body (i : Nat) {ts : List Term} (hne : ts ≠ []) (r : Text) :
    good (textAll .expression (statementStart true i) (statementStart false i) i ts ++ r) = true := by
  cases ts with
  | nil => exact absurd rfl hne
  | cons t ts => simp only [textAll, List.append_assoc]; exact good_statement true i _

/-- The arguments of a call, with their parentheses. -/
theorem lex_arguments (i : Nat) {ts : List Term}
    (h : ∀ t ∈ ts, ∀ c i, Lexes (t.text .expression c i) (t.toks .expression c)) {r : Text} {us : List Tok} (hl : Lex r us) :
    Lex (textAll .expression "(".toList ", ".toList i ts ++ ((if ts.isEmpty then "()".toList else ")".toList) ++ r))
      (.lparen :: (toksAll .expression true ts ++ .rparen :: us)) := by
  cases ts with
  | nil => simpa [textAll, toksAll] using lex_lparen (lex_rparen hl)
  | cons t ts =>
    have := lex_items .expression i separates_comma good_comma (t :: ts) h true (")".toList ++ r) (.rparen :: us)
      (by simp [good, goodChar]) (by simpa using lex_rparen hl)
    simp only [if_true, textAll, List.nil_append] at this
    simpa [textAll] using lex_lparen this

theorem good_arguments (i : Nat) (ts : List Term) (r : Text) :
    good (textAll .expression "(".toList ", ".toList i ts ++ ((if ts.isEmpty then "()".toList else ")".toList) ++ r)) =
      true := by
  cases ts <;> simp [textAll, good, goodChar]

/-- The word before the clauses. -/
def ofToks : List Clause → List Tok
  | [] => []
  | _ :: _ => [.word .of]

/-- The rest of a list starts with a comma, a bar or a bracket. -/
theorem good_tail (k : Kind) (t : Term) (i : Nat) (r : Text) : good (t.text k { tail := true } i ++ r) = true := by
  cases t <;> simp [Term.text, Ctx.rest, good, goodChar]

theorem lex_memAll {k : Kind} {ts : List Term} (h : OkAll k ts) : ∀ t ∈ ts, t.Ok k := by
  induction ts with
  | nil => simp
  | cons t ts ih =>
    simp only [OkAll] at h
    intro u hu
    rcases List.mem_cons.mp hu with rfl | hu
    · exact h.1
    · exact ih h.2 u hu

mutual

theorem Term.lexes (k : Kind) : ∀ (t : Term), t.Ok k → ∀ c i, Lexes (t.text k c i) (t.toks k c)
  | .var n, h, c, i => by
    simp only [Term.Ok] at h; simp only [Term.text, Term.toks]; exact lexes_rest (lexes_var h) c
  | .discard, h, c, i => by
    simp only [Term.text, Term.toks]; exact lexes_rest lexes_discard c
  | .int n, _, c, i => by
    simp only [Term.text, Term.toks]; exact lexes_rest (lexes_int n) c
  | .float s w f, h, c, i => by
    simp only [Term.Ok] at h; simp only [Term.text, Term.toks]; exact lexes_rest (lexes_float s h.1 h.2) c
  | .string s, h, c, i => by
    simp only [Term.Ok] at h; simp only [Term.text, Term.toks]; exact lexes_rest (lexes_string h c.value) c
  | .atom n, h, c, i => by
    simp only [Term.Ok] at h; simp only [Term.text, Term.toks]; exact lexes_rest (lexes_atom h) c
  | .nil, _, c, i => by
    simp only [Term.text, Term.toks]; exact lexes_nil c
  | .cons a t, h, c, i => by
    simp only [Term.Ok] at h
    simp only [Term.text, Term.toks]
    intro r ts hr hl
    have ht := t.lexes k h.2 { tail := true } i r ts hr hl
    have ha := a.lexes k h.1 plain i _ _ (good_tail k t i r) ht
    simp only [List.append_assoc, List.cons_append]
    split
    · simpa using lex_comma (lex_space ha)
    · simpa using lex_lbrack ha
  | .tuple ts, h, c, i => by
    simp only [Term.Ok] at h
    simp only [Term.text, Term.toks]
    refine lexes_rest ?_ c
    intro r us hr hl
    have := lex_items k i separates_comma good_comma ts (lexesAll k ts h) true ("}".toList ++ r) (.rbrace :: us)
      (by simp [good, goodChar]) (by simpa using lex_rbrace hl)
    simpa using lex_lbrace this
  | .bits ss, h, c, i => by
    simp only [Term.Ok] at h
    simp only [Term.text, Term.toks]
    refine lexes_rest ?_ c
    intro r us hr hl
    have := lexesSegments k ss h true i (">>".toList ++ r) (.gtgt :: us)
      (by simp [good, goodChar]) (by simpa using lex_gtgt hl)
    simpa using lex_ltlt this
  | .map fs, h, c, i => by
    simp only [Term.Ok] at h
    simp only [Term.text, Term.toks]
    refine lexes_rest ?_ c
    intro r us hr hl
    have := lexesFields fs h.2 true (i + INDENT) (endLine i "}".toList ++ r) (.rbrace :: us)
      (good_endLine _ _ _) (lex_endLine (by simpa using lex_rbrace hl))
    simpa using lex_hash (lex_lbrace this)
  | .block ts, h, c, i => by
    simp only [Term.Ok] at h
    simp only [Term.text, Term.toks]
    refine lexes_rest ?_ c
    intro r us hr hl
    have := lex_body (i + INDENT) (lexesAll .expression ts h.2.2) (endLine i "end".toList ++ r) (.word .end_ :: us)
      (good_endLine _ _ _) (lex_end hr hl)
    have := lex_words (w := "begin") (t := .word .begin) (by decide) (lits _ (by decide))
      (good_bound (good_body (i + INDENT) h.2.1 _)) this
    simpa only [List.append_assoc, List.cons_append, List.nil_append] using this
  | .call f ts, h, c, i => by
    simp only [Term.Ok] at h
    simp only [Term.text, Term.toks]
    refine lexes_rest ?_ c
    intro r us hr hl
    have := lex_arguments i (lexesAll .expression ts h.2.2.2) hl
    have := lexes_paren (f.lexes .expression h.2.2.1 plain i) f.isCall _ _ (good_arguments i ts r) this
    simpa only [List.append_assoc, List.cons_append, List.nil_append] using this
  | .remote m f ts, h, c, i => by
    simp only [Term.Ok] at h
    simp only [Term.text, Term.toks]
    refine lexes_rest ?_ c
    intro r us hr hl
    have := lex_arguments i (lexesAll .expression ts h.2.2.2) hl
    have := lex_atomColon h.2.1 (lexes_atom h.2.2.1 _ _ (good_arguments i ts r) this)
    simpa only [List.append_assoc, List.cons_append, List.nil_append] using this
  | .function ns ts, h, c, i => by
    simp only [Term.Ok] at h
    simp only [Term.text, Term.toks]
    refine lexes_rest ?_ c
    intro r us hr hl
    have := lex_body (i + INDENT) (lexesAll .expression ts h.2.2.2) (endLine i "end".toList ++ r) (.word .end_ :: us)
      (good_endLine _ _ _) (lex_end hr hl)
    have := lex_parenArrow this
    have := lexes_parameters ns h.2.1 (") ->".toList ++ _) _ (by simp [good, goodChar]) this
    have := lex_funParen this
    simpa only [List.append_assoc, List.cons_append, List.nil_append] using this
  | .reference m n a, h, c, i => by
    simp only [Term.Ok] at h
    simp only [Term.text, Term.toks]
    refine lexes_rest ?_ c
    intro r us hr hl
    have := lex_atomArity a h.2.2 r us hr hl
    simp only [List.append_assoc] at this
    cases m with
    | none =>
      have := lex_funText this
      simpa only [List.append_assoc, List.cons_append, List.nil_append, moduleToks] using this
    | some m =>
      have := lex_funText (lex_atomColon (h.2.1 m rfl) this)
      simpa only [List.append_assoc, List.cons_append, List.nil_append, moduleToks] using this
  | .unary op t, h, c, i => by
    simp only [Term.Ok] at h
    simp only [Term.text, Term.toks]
    refine lexes_rest ?_ c
    intro r us hr hl
    have := lex_unop op (t.lexes .expression h.2.2 { operand := true, value := c.value } i r us hr hl)
    simpa only [List.append_assoc, List.cons_append, List.nil_append] using this
  | .binary op a b, h, c, i => by
    simp only [Term.Ok] at h
    simp only [Term.text, Term.toks]
    refine lexes_rest (lexes_paren ?_ _) c
    intro r us hr hl
    have := lex_op op (b.lexes .expression h.2.2.2.2 { operand := true } i r us hr hl)
    have := a.lexes .expression h.2.2.2.1 { operand := true } i _ _ (by simp [good, goodChar]) this
    simpa only [List.append_assoc, List.cons_append, List.nil_append] using this
  | .bind a b, h, c, i => by
    simp only [Term.Ok] at h
    simp only [Term.text, Term.toks]
    refine lexes_rest ?_ c
    intro r us hr hl
    have := lex_bind (b.lexes k h.2 { value := c.value } i r us hr hl)
    have := a.lexes .pattern h.1 plain i (" = ".toList ++ _) _ (by simp [good, goodChar]) (by simpa using lex_space this)
    simpa only [List.append_assoc, List.cons_append, List.nil_append] using this
  | .case_ s cs, h, c, i => by
    simp only [Term.Ok] at h
    simp only [Term.text, Term.toks]
    refine lexes_rest ?_ c
    intro r us hr hl
    have := lexesClauses cs h.2.2.2 true (i + INDENT) (endLine i "end".toList ++ r) (.word .end_ :: us)
      (good_endLine _ _ _) (lex_end hr hl)
    have := s.lexes .expression h.2.1 plain i _ _ (good_clause true _ cs _ (good_endLine _ _ _)) this
    have := lex_caseText this
    cases cs with
    | nil => exact absurd rfl h.2.2.1
    | cons x xs =>
    simpa [ofToks] using this

theorem lexesAll (k : Kind) : ∀ (ts : List Term), OkAll k ts → ∀ t ∈ ts, ∀ c i, Lexes (t.text k c i) (t.toks k c)
  | [], _ => fun t ht => absurd ht (by simp)
  | t :: ts, h => by
    simp only [OkAll] at h
    intro u hu
    rcases List.mem_cons.mp hu with hu | hu
    · rw [hu]; exact t.lexes k h.1
    · exact lexesAll k ts h.2 u hu

theorem lexesSegments (k : Kind) : ∀ (ss : List Segment), OkSegments k ss → ∀ f i,
    Lexes (segmentText k f i ss) (segmentToks k f ss)
  | [], _, f, i => fun _ _ _ hl => by simpa [segmentText, segmentToks] using hl
  | .mk v none sp :: ss, h, f, i => by
    simp only [OkSegments] at h
    intro r us hr hl
    have := lexesSegments k ss h.2 false i r us hr hl
    have := lexes_specs (sortSpecs sp) true _ _ (good_segment k i ss r hr) this
    have := lexes_paren (v.lexes k h.1 { value := true } i) (!v.bare k) _ _
      (good_spec _ _ _ (good_segment k i ss r hr)) this
    have := lex_commaFirst (f := f) this
    simpa only [segmentText, segmentToks, List.append_assoc, List.cons_append, List.nil_append] using this
  | .mk v (some s) sp :: ss, h, f, i => by
    simp only [OkSegments] at h
    intro r us hr hl
    have := lexesSegments k ss h.2.2.2 false i r us hr hl
    have := lexes_specs (sortSpecs sp) true _ _ (good_segment k i ss r hr) this
    have := lexes_paren (s.lexes .expression h.2.2.1 plain i) (!s.bare .expression) _ _
      (good_spec _ _ _ (good_segment k i ss r hr)) this
    obtain ⟨c, x, he, h1, h2⟩ := size_head s i (specsText true (sortSpecs sp) ++ (segmentText k false i ss ++ r)) h.2.2.1 h.2.1
    rw [he] at this
    have := lex_colon h1 h2 this
    rw [← he] at this
    have := lexes_paren (v.lexes k h.1 { value := true } i) (!v.bare k) (":".toList ++ _) _ (by simp [good, goodChar])
      (by simpa using this)
    have := lex_commaFirst (f := f) this
    simpa only [segmentText, segmentToks, List.append_assoc, List.cons_append, List.nil_append] using this

theorem lexesFields : ∀ (fs : List Field), OkFields fs → ∀ f i, Lexes (fieldText f i fs) (fieldToks f fs)
  | [], _, f, i => fun _ _ _ hl => by simpa [fieldText, fieldToks] using hl
  | .mk a b :: fs, h, f, i => by
    simp only [OkFields] at h
    intro r us hr hl
    have := lexesFields fs h.2.2 false i r us hr hl
    have := b.lexes .expression h.2.1 plain i _ _ (good_field i fs r hr) this
    have := a.lexes .expression h.1 plain i (" => ".toList ++ _) _ (by simp [good, goodChar])
      (by simpa using lex_space (lex_assoc (lex_space this)))
    have := lex_lineFirst (f := f) (lex_spaces i this)
    simpa only [fieldText, fieldToks, List.append_assoc, List.cons_append, List.nil_append] using this

theorem lexesClauses : ∀ (cs : List Clause), OkClauses cs → ∀ f i,
    Lexes (clauseText f i cs) ((if f then ofToks cs else []) ++ clauseToks f cs)
  | [], _, f, i => fun _ _ _ hl => by simpa [clauseText, clauseToks, ofToks] using hl
  | .mk p none b :: cs, h, f, i => by
    simp only [OkClauses] at h
    intro r us hr hl
    have := lexesClauses cs h.2.2.2 false i r us hr hl
    simp only [Bool.false_eq_true, if_false, List.nil_append] at this
    have := lex_body (i + INDENT) (lexesAll .expression b h.2.2.1) _ _ (good_clause false i cs r hr) this
    have := p.lexes .pattern h.1 plain i (" ->".toList ++ _) _ (by simp [good, goodChar]) (lex_arrowText this)
    have := lex_clauseFirst (f := f) (lex_spaces i this)
    cases f <;>
      simpa only [clauseText, clauseToks, List.append_assoc, List.cons_append, List.nil_append, sepToks, ofToks, if_true,
        if_false, Bool.false_eq_true] using this
  | .mk p (some g) b :: cs, h, f, i => by
    simp only [OkClauses] at h
    intro r us hr hl
    have := lexesClauses cs h.2.2.2.2 false i r us hr hl
    simp only [Bool.false_eq_true, if_false, List.nil_append] at this
    have := lex_body (i + INDENT) (lexesAll .expression b h.2.2.2.1) _ _ (good_clause false i cs r hr) this
    have := g.lexes .expression h.2.1 plain i (" ->".toList ++ _) _ (by simp [good, goodChar]) (lex_arrowText this)
    have := p.lexes .pattern h.1 plain i (" when ".toList ++ _) _ (by simp [good, goodChar]) (lex_whenText this)
    have := lex_clauseFirst (f := f) (lex_spaces i this)
    cases f <;>
      simpa only [clauseText, clauseToks, List.append_assoc, List.cons_append, List.nil_append, sepToks, ofToks, if_true,
        if_false, Bool.false_eq_true] using this

end

end Verif.ErlText
