import Verif.Strings.Model
import Verif.Strings.Spec
import Mathlib.Tactic.Tauto
/-! Lemmas on string literals. -/
namespace Verif.Strings

open Spec

theorem scalar_eq (n : Nat) : scalar? n = charFromU32 n := by
  unfold scalar? charFromU32
  have : n.isValidChar ↔ n < 0xD800 ∨ (0xDFFF < n ∧ n < 0x110000) := Iff.rfl
  by_cases h : n.isValidChar
  · rw [dif_pos h, if_pos (this.1 h), Char.ofNat, dif_pos h]
  · rw [dif_neg h, if_neg (fun h2 => h (this.2 h2))]

theorem digitValue_hex (c : Char) (h : isHex c = true) : digitValue? c = some (hexVal c) := by
  simp only [isHex, Bool.or_eq_true, Bool.and_eq_true, decide_eq_true_eq] at h
  simp only [digitValue?, hexVal, show '0'.toNat = 48 from rfl, show '9'.toNat = 57 from rfl, show 'a'.toNat = 97 from rfl,
    show 'f'.toNat = 102 from rfl, show 'A'.toNat = 65 from rfl, show 'F'.toNat = 70 from rfl]
  rcases h with (h | h) | h
  · rw [if_pos h, if_pos h.2]
  · rw [if_neg (by omega), if_neg (by omega), if_pos h, if_neg (by omega), if_pos h.2]; congr 1; omega
  · rw [if_neg (by omega), if_pos h, if_neg (by omega), if_neg (by omega)]; congr 1; omega

theorem digitValue_none (c : Char) (h : isHex c = false) : digitValue? c = none := by
  have h' : ¬ (isHex c = true) := by simp [h]
  simp only [isHex, Bool.or_eq_true, Bool.and_eq_true, decide_eq_true_eq] at h'
  simp only [digitValue?, show '0'.toNat = 48 from rfl, show '9'.toNat = 57 from rfl, show 'a'.toNat = 97 from rfl,
    show 'f'.toNat = 102 from rfl, show 'A'.toNat = 65 from rfl, show 'F'.toNat = 70 from rfl]
  rw [if_neg (by tauto), if_neg (by tauto), if_neg (by tauto)]

theorem hexNumber_none_foldl (ds : List Char) :
    ds.foldl (fun a d => match a, digitValue? d with
      | some a, some v => some (16 * a + v)
      | _, _ => none) (none : Option Nat) = none := by
  induction ds with
  | nil => rfl
  | cons d ds ih => simpa using ih

theorem hexNumber_foldl (ds : List Char) (a : Nat) (h : ∀ c ∈ ds, isHex c = true) :
    ds.foldl (fun a d => match a, digitValue? d with
      | some a, some v => some (16 * a + v)
      | _, _ => none) (some a) = some (ds.foldl (fun a c => a * 16 + hexVal c) a) := by
  induction ds generalizing a with
  | nil => rfl
  | cons d ds ih =>
    simp only [List.foldl_cons, digitValue_hex d (h d (by simp))]
    rw [ih _ (fun c hc => h c (by simp [hc])), Nat.mul_comm]

theorem hexNumber_all {ds : List Char} {a : Option Nat} {n : Nat}
    (h : ds.foldl (fun a d => match a, digitValue? d with
      | some a, some v => some (16 * a + v)
      | _, _ => none) a = some n) : ∀ c ∈ ds, isHex c = true := by
  induction ds generalizing a with
  | nil => simp
  | cons d ds ih =>
    intro c hc
    simp only [List.foldl_cons] at h
    rcases List.mem_cons.1 hc with rfl | hc
    · cases hd : isHex c with
      | true => rfl
      | false =>
      rw [digitValue_none c hd] at h
      have : (match a, (none : Option Nat) with
        | some a, some v => some (16 * a + v)
        | _, _ => none) = none := by cases a <;> rfl
      rw [this, hexNumber_none_foldl] at h
      simp at h
    · exact ih h c hc

theorem foldl_hex_lt (ds : List Char) (h : ∀ c ∈ ds, isHex c = true) (a : Nat) :
    ds.foldl (fun a c => a * 16 + hexVal c) a < (a + 1) * 16 ^ ds.length := by
  induction ds generalizing a with
  | nil => simp
  | cons d ds ih =>
    have hd : hexVal d < 16 := by
      have := h d (by simp)
      simp only [isHex, Bool.or_eq_true, Bool.and_eq_true, decide_eq_true_eq] at this
      unfold hexVal
      split
      · omega
      · split <;> omega
    have := ih (fun c hc => h c (by simp [hc])) (a * 16 + hexVal d)
    simp only [List.foldl_cons, List.length_cons]
    calc _ < _ := this
      _ ≤ (a + 1) * 16 * 16 ^ ds.length := Nat.mul_le_mul_right _ (by omega)
      _ = _ := by rw [Nat.pow_succ]; ac_rfl

/-- On 1 to 6 digits, the two readings of the code point agree. -/
theorem unicode_agree (ds : List Char) (h1 : 1 ≤ ds.length) (h2 : ds.length ≤ 6) (h : ∀ c ∈ ds, isHex c = true) :
    (parseHex ds).bind charFromU32 = (hexNumber? ds).bind scalar? := by
  have hn : hexNumber? ds = some (ds.foldl (fun a c => a * 16 + hexVal c) 0) := hexNumber_foldl ds 0 h
  have hlt := foldl_hex_lt ds h 0
  have hp : 16 ^ ds.length ≤ 16 ^ 6 := Nat.pow_le_pow_right (by omega) h2
  have : parseHex ds = some (ds.foldl (fun a c => a * 16 + hexVal c) 0) := by
    unfold parseHex
    rw [if_neg]
    rintro (rfl | h3)
    · simp at h1
    · omega
  rw [hn, this]
  simp only [Option.bind_some, scalar_eq]

theorem hexNumber_isHex {ds : List Char} {c : Char} (h : (hexNumber? ds).bind scalar? = some c) :
    ∀ c ∈ ds, isHex c = true := by
  cases hn : hexNumber? ds with
  | none => simp [hn] at h
  | some n => exact hexNumber_all hn

theorem isHex_ne_brace {c : Char} (h : isHex c = true) : c ≠ '}' := by
  rintro rfl; exact absurd h (by decide)

theorem takeWhile_hex (ds r : List Char) (h : ∀ c ∈ ds, isHex c = true) :
    (ds ++ '}' :: r).takeWhile isHex = ds ∧ (ds ++ '}' :: r).dropWhile isHex = '}' :: r := by
  induction ds with
  | nil => constructor <;> rfl
  | cons d ds ih =>
    have := ih (fun c hc => h c (by simp [hc]))
    have hd := h d (by simp)
    simp [List.takeWhile_cons, List.dropWhile_cons, hd, this]

theorem untilBrace_hex (ds r : List Char) (h : ∀ c ∈ ds, isHex c = true) :
    untilBrace (ds ++ '}' :: r) = some (ds, r) := by
  induction ds with
  | nil => simp [untilBrace]
  | cons d ds ih =>
    have := ih (fun c hc => h c (by simp [hc]))
    simp [untilBrace, isHex_ne_brace (h d (by simp)), this]

/-- What the value of a unicode piece says about it. -/
theorem unicode_value {ds : List Char} {c : Char} (h : (Piece.unicode ds).value? = some c) :
    1 ≤ ds.length ∧ ds.length ≤ 6 ∧ (∀ c ∈ ds, isHex c = true) ∧ (parseHex ds).bind charFromU32 = some c ∧
      (hexNumber? ds).bind scalar? = some c := by
  simp only [Piece.value?] at h
  split at h
  · rename_i hl
    have hh := hexNumber_isHex h
    exact ⟨hl.1, hl.2, hh, by rw [unicode_agree ds hl.1 hl.2 hh]; exact h, h⟩
  · simp at h

theorem stringStep_piece (p : Piece) (c : Char) (h : p.value? = some c) (r : List Char) :
    stringStep (p.text ++ r) = .piece p.text r := by
  cases p with
  | char d =>
    simp only [Piece.value?] at h
    split at h
    · simp at h
    · rename_i hd
      simp only [not_or] at hd
      simp [Piece.text, stringStep, hd.1, hd.2]
  | unicode ds =>
    obtain ⟨h1, h2, hh, hc, -⟩ := unicode_value h
    obtain ⟨ht, hd⟩ := takeWhile_hex ds r hh
    simp only [Piece.text, List.cons_append, List.nil_append, List.append_assoc, stringStep, if_true, escapeStep, unicodeStep,
      ht, hd, unicodeClose, unicodeChecked, hc]
    rw [if_neg (by omega)]; simp
  | _ => simp [Piece.text, stringStep, escapeStep]

theorem stringStep_sound {s p r : List Char} (h : stringStep s = .piece p r) :
    ∃ (q : Piece) (c : Char), q.value? = some c ∧ p = q.text ∧ s = q.text ++ r := by
  cases s with
  | nil => simp [stringStep] at h
  | cons a s =>
    simp only [stringStep] at h
    split at h
    · subst a
      cases s with
      | nil => simp [escapeStep] at h
      | cons b s =>
        simp only [escapeStep] at h
        split at h
        · subst b
          cases s with
          | nil => simp [unicodeStep] at h
          | cons d s =>
            by_cases hd : d = '{'
            · subst hd
              simp only [unicodeStep] at h
              have hsplit := List.takeWhile_append_dropWhile (p := isHex) (l := s)
              have hh : ∀ c ∈ s.takeWhile isHex, isHex c = true := fun c hc => by
                have := List.all_takeWhile (p := isHex) (l := s)
                exact List.all_eq_true.1 this c hc
              cases hdw : s.dropWhile isHex with
              | nil => rw [hdw] at h; simp [unicodeClose] at h
              | cons e t =>
                by_cases he : e = '}'
                · subst he
                  rw [hdw] at h hsplit
                  simp only [unicodeClose, unicodeChecked] at h
                  split at h
                  · simp at h
                  · rename_i hl
                    split at h
                    · simp at h
                    · rename_i hv
                      simp only [Step.piece.injEq] at h
                      obtain ⟨rfl, rfl⟩ := h
                      obtain ⟨c, hc⟩ : ∃ c, (parseHex (s.takeWhile isHex)).bind charFromU32 = some c := by
                        cases hb : (parseHex (s.takeWhile isHex)).bind charFromU32 with
                        | none => rw [hb] at hv; simp at hv
                        | some c => exact ⟨c, rfl⟩
                      refine ⟨.unicode (s.takeWhile isHex), c, ?_, by simp [Piece.text], ?_⟩
                      · rw [unicode_agree _ (by omega) (by omega) hh] at hc
                        simp only [Piece.value?]
                        rw [if_pos (by omega)]; exact hc
                      · simp only [Piece.text]
                        conv => lhs; rw [← hsplit]
                        simp
                · rw [hdw] at h
                  simp [unicodeClose, he] at h
            · simp [unicodeStep, hd] at h
        · split at h
          · rename_i hb
            simp only [Step.piece.injEq] at h
            obtain ⟨rfl, rfl⟩ := h
            rcases hb with rfl | rfl | rfl | rfl | rfl | rfl
            · exact ⟨.formFeed, _, rfl, rfl, rfl⟩
            · exact ⟨.newline, _, rfl, rfl, rfl⟩
            · exact ⟨.carriageReturn, _, rfl, rfl, rfl⟩
            · exact ⟨.tab, _, rfl, rfl, rfl⟩
            · exact ⟨.quote, _, rfl, rfl, rfl⟩
            · exact ⟨.backslash, _, rfl, rfl, rfl⟩
          · simp at h
    · split at h
      · simp at h
      · rename_i h1 h2
        simp only [Step.piece.injEq] at h
        obtain ⟨rfl, rfl⟩ := h
        exact ⟨.char a, a, by simp [Piece.value?, h1, h2], rfl, rfl⟩

theorem piece_text_pos (p : Piece) : 1 ≤ p.text.length := by cases p <;> simp [Piece.text]

theorem denotes_cons {p : Piece} {ps : List Piece} {v : List Char} (h : Denotes (p :: ps) v) :
    ∃ c w, v = c :: w ∧ p.value? = some c ∧ Denotes ps w := by
  cases v with
  | nil => simp [Denotes] at h
  | cons c w =>
    simp only [Denotes, List.map_cons, List.cons.injEq] at h
    exact ⟨c, w, rfl, h.1, h.2⟩

theorem denotes_nil {v : List Char} (h : Denotes [] v) : v = [] := by
  cases v <;> simp_all [Denotes]

theorem text_cons (p : Piece) (ps : List Piece) : text (p :: ps) = p.text ++ text ps := by simp [text]

theorem stringStep_done (r : List Char) : stringStep ('"' :: r) = .done r := by simp [stringStep]

theorem lexLoop_complete (ps : List Piece) (v : List Char) (h : Denotes ps v) (acc r : List Char) (fuel : Nat)
    (hf : (text ps).length < fuel) :
    lexStringLoop fuel acc (text ps ++ '"' :: r) = some (acc ++ text ps, r) := by
  induction ps generalizing v acc fuel with
  | nil =>
    obtain ⟨f, rfl⟩ : ∃ f, fuel = f + 1 := ⟨fuel - 1, by omega⟩
    simp [text, lexStringLoop, stringStep_done]
  | cons p ps ih =>
    obtain ⟨c, w, rfl, hp, hw⟩ := denotes_cons h
    obtain ⟨f, rfl⟩ : ∃ f, fuel = f + 1 := ⟨fuel - 1, by omega⟩
    have := piece_text_pos p
    rw [text_cons] at hf ⊢
    simp only [List.length_append] at hf
    rw [lexStringLoop, List.append_assoc, stringStep_piece p c hp]
    simp only
    rw [ih w hw _ f (by omega), List.append_assoc]

theorem lexLoop_sound (fuel : Nat) (acc s content rest : List Char)
    (h : lexStringLoop fuel acc s = some (content, rest)) :
    ∃ ps v, Denotes ps v ∧ content = acc ++ text ps ∧ s = text ps ++ '"' :: rest := by
  induction fuel generalizing acc s with
  | zero => simp [lexStringLoop] at h
  | succ fuel ih =>
    rw [lexStringLoop] at h
    cases hs : stringStep s with
    | error => rw [hs] at h; simp at h
    | done r =>
      rw [hs] at h
      simp only [Option.some.injEq, Prod.mk.injEq] at h
      obtain ⟨rfl, rfl⟩ := h
      refine ⟨[], [], rfl, by simp [text], ?_⟩
      cases s with
      | nil => simp [stringStep] at hs
      | cons a s =>
        simp only [stringStep] at hs
        split at hs
        · exfalso
          cases s with
          | nil => simp [escapeStep] at hs
          | cons b s =>
            simp only [escapeStep] at hs
            split at hs
            · cases s with
              | nil => simp [unicodeStep] at hs
              | cons d s =>
                by_cases hd : d = '{'
                · subst hd
                  simp only [unicodeStep] at hs
                  cases hdw : s.dropWhile isHex with
                  | nil => rw [hdw] at hs; simp [unicodeClose] at hs
                  | cons e t =>
                    by_cases he : e = '}'
                    · subst he; rw [hdw] at hs
                      simp only [unicodeClose, unicodeChecked] at hs
                      split at hs
                      · simp at hs
                      · split at hs <;> simp at hs
                    · rw [hdw] at hs; simp [unicodeClose, he] at hs
                · simp [unicodeStep, hd] at hs
            · split at hs <;> simp at hs
        · split at hs
          · subst a; simp at hs; subst hs; simp [text]
          · simp at hs
    | piece p r =>
      rw [hs] at h
      obtain ⟨q, c, hq, rfl, rfl⟩ := stringStep_sound hs
      obtain ⟨ps, v, hv, rfl, rfl⟩ := ih _ _ h
      refine ⟨q :: ps, c :: v, ?_, ?_, ?_⟩
      · simp only [Denotes, List.map_cons, hq, List.cons.injEq, true_and]; exact hv
      · simp [text_cons]
      · simp [text_cons]

/-! `convert` -/

theorem convertStep_piece (p : Piece) (c : Char) (h : p.value? = some c) (r : List Char) :
    convertStep (p.text ++ r) = some ([c], r) := by
  cases p with
  | char d =>
    simp only [Piece.value?] at h
    split at h
    · simp at h
    · rename_i hd
      simp only [not_or] at hd
      simp only [Option.some.injEq] at h; subst h
      simp [Piece.text, convertStep, hd.1]
  | unicode ds =>
    obtain ⟨h1, h2, hh, hc, -⟩ := unicode_value h
    obtain ⟨ht, hd⟩ := takeWhile_hex ds r hh
    have hne : ds ≠ [] := by rintro rfl; simp at h1
    simp [Piece.text, convertStep, convertU, ht, hd, convertUnicode, hne, hc]
  | _ =>
    simp only [Piece.value?, Option.some.injEq] at h
    subst h
    simp [Piece.text, convertStep, simpleEscape]

theorem convertLoop_pieces (ps : List Piece) (v : List Char) (h : Denotes ps v) (fuel : Nat)
    (hf : (text ps).length < fuel) : convertLoop fuel (text ps) = v := by
  induction ps generalizing v fuel with
  | nil =>
    obtain ⟨f, rfl⟩ : ∃ f, fuel = f + 1 := ⟨fuel - 1, by omega⟩
    rw [denotes_nil h]; rfl
  | cons p ps ih =>
    obtain ⟨c, w, rfl, hp, hw⟩ := denotes_cons h
    obtain ⟨f, rfl⟩ : ∃ f, fuel = f + 1 := ⟨fuel - 1, by omega⟩
    have := piece_text_pos p
    rw [text_cons] at hf ⊢
    simp only [List.length_append] at hf
    rw [convertLoop, convertStep_piece p c hp]
    simp only
    rw [ih w hw f (by omega)]; rfl

/-! Erlang -/

theorem escapeErlang_parity (s : List Char) (n m : Nat) (h : n % 2 = m % 2) : escapeErlang n s = escapeErlang m s := by
  induction s generalizing n m with
  | nil => rfl
  | cons c cs ih =>
    simp only [escapeErlang, h]
    rw [ih (n + 1) (m + 1) (by omega)]

theorem escapeErlang_plain (ds r : List Char) (h : ∀ c ∈ ds, c ≠ '\\' ∧ c ≠ 'u') :
    escapeErlang 0 (ds ++ r) = ds ++ escapeErlang 0 r := by
  induction ds with
  | nil => rfl
  | cons d ds ih =>
    have := h d (by simp)
    simp [escapeErlang, this, ih (fun c hc => h c (by simp [hc]))]

/-- What a piece becomes in Erlang. -/
def erlText : Piece → List Char
  | .unicode ds => ['\\', 'x', '{'] ++ ds ++ ['}']
  | p => p.text

theorem isHex_plain {c : Char} (h : isHex c = true) : c ≠ '\\' ∧ c ≠ 'u' := by
  constructor <;> (rintro rfl; exact absurd h (by decide))

theorem escapeErlang_piece (p : Piece) (c : Char) (h : p.value? = some c) (r : List Char) :
    escapeErlang 0 (p.text ++ r) = erlText p ++ escapeErlang 0 r := by
  cases p with
  | char d =>
    simp only [Piece.value?] at h
    split at h
    · simp at h
    · rename_i hd
      simp only [not_or] at hd
      simp [Piece.text, erlText, escapeErlang, hd.1]
  | unicode ds =>
    obtain ⟨h1, h2, hh, hc, -⟩ := unicode_value h
    have := escapeErlang_plain ds ('}' :: r) (fun c hc => isHex_plain (hh c hc))
    simp [Piece.text, erlText, escapeErlang, this]
  | backslash =>
    simp [Piece.text, erlText, escapeErlang]
    exact escapeErlang_parity _ _ _ rfl
  | _ => simp [Piece.text, erlText, escapeErlang]

theorem erlangChar_piece (p : Piece) (c : Char) (h : p.value? = some c) (r : List Char) :
    erlangChar (erlText p ++ r) = some (c, r) := by
  cases p with
  | char d =>
    simp only [Piece.value?] at h
    split at h
    · simp at h
    · rename_i hd
      simp only [not_or] at hd
      simp only [Option.some.injEq] at h; subst h
      simp only [erlText, Piece.text, List.singleton_append]
      unfold erlangChar
      split <;> simp_all
  | unicode ds =>
    obtain ⟨h1, h2, hh, -, hc⟩ := unicode_value h
    have := untilBrace_hex ds r hh
    simp only [erlText, erlangChar, this, List.cons_append, List.nil_append, List.append_assoc, Option.bind_some, hc,
      Option.map_some]
  | _ =>
    simp only [Piece.value?, Option.some.injEq] at h
    subst h
    simp [erlText, Piece.text, erlangChar]

/-! JavaScript -/

def jsText : Piece → List Char
  | .char c => if c = '\n' then ['\\', 'n'] else [c]
  | p => p.text

theorem jsContent_append (a b : List Char) : jsStringContent (a ++ b) = jsStringContent a ++ jsStringContent b := by
  simp [jsStringContent]

theorem jsContent_plain (ds : List Char) (h : '\n' ∉ ds) : jsStringContent ds = ds := by
  induction ds with
  | nil => rfl
  | cons d ds ih =>
    simp only [List.mem_cons, not_or] at h
    have h1 : d ≠ '\n' := fun e => h.1 e.symm
    have := ih h.2
    simp only [jsStringContent] at this ⊢
    simp [h1, this]

theorem jsContent_piece (p : Piece) (c : Char) (h : p.value? = some c) : jsStringContent p.text = jsText p := by
  cases p with
  | char d => simp [jsStringContent, Piece.text, jsText]
  | unicode ds =>
    obtain ⟨h1, h2, hh, -, hc⟩ := unicode_value h
    apply jsContent_plain
    intro hm
    simp only [Piece.text, List.mem_append, List.mem_cons, List.not_mem_nil, or_false] at hm
    rcases hm with ((hm | hm | hm) | hm) | hm
    · exact absurd hm (by decide)
    · exact absurd hm (by decide)
    · exact absurd hm (by decide)
    · exact absurd (hh _ hm) (by decide)
    · exact absurd hm (by decide)
  | _ => rfl

theorem jsChar_piece (p : Piece) (c : Char) (h : p.value? = some c) (hr : ∀ d, p = .char d → d ≠ '\r') (r : List Char) :
    jsChar (jsText p ++ r) = some (c, r) := by
  cases p with
  | char d =>
    simp only [Piece.value?] at h
    split at h
    · simp at h
    · rename_i hd
      simp only [not_or] at hd
      simp only [Option.some.injEq] at h; subst h
      simp only [jsText]
      split
      · subst d; rfl
      · have := hr d rfl
        simp only [List.singleton_append]
        unfold jsChar
        split <;> simp_all
  | unicode ds =>
    obtain ⟨h1, h2, hh, -, hc⟩ := unicode_value h
    have := untilBrace_hex ds r hh
    simp only [jsText, Piece.text, jsChar, this, List.cons_append, List.nil_append, List.append_assoc, Option.bind_some, hc,
      Option.map_some]
  | _ =>
    simp only [Piece.value?, Option.some.injEq] at h
    subst h
    simp [jsText, Piece.text, jsChar]

theorem reads_erlang (ps : List Piece) (v : List Char) (h : Denotes ps v) :
    Reads erlangChar (escapeErlang 0 (text ps)) v := by
  induction ps generalizing v with
  | nil => rw [denotes_nil h]; exact .nil
  | cons p ps ih =>
    obtain ⟨c, w, rfl, hp, hw⟩ := denotes_cons h
    rw [text_cons, escapeErlang_piece p c hp]
    exact .cons (erlangChar_piece p c hp _) (ih w hw)

theorem reads_js (ps : List Piece) (v : List Char) (h : Denotes ps v) (hr : '\r' ∉ text ps) :
    Reads jsChar (jsStringContent (text ps)) v := by
  induction ps generalizing v with
  | nil => rw [denotes_nil h]; exact .nil
  | cons p ps ih =>
    obtain ⟨c, w, rfl, hp, hw⟩ := denotes_cons h
    rw [text_cons] at hr ⊢
    rw [jsContent_append, jsContent_piece p c hp]
    simp only [List.mem_append, not_or] at hr
    refine .cons (jsChar_piece p c hp ?_ _) (ih w hw hr.2)
    rintro d rfl rfl
    exact hr.1 (by simp [Piece.text])

theorem normalise_no_cr (s : List Char) : '\r' ∉ normalise s := by
  induction s using normalise.induct with
  | case1 cs ih => simp [normalise, ih]
  | case2 cs h ih =>
    rw [normalise]
    · simp [ih]
    · exact h
  | case3 c cs h1 h2 ih =>
    rw [normalise]
    · simp only [List.mem_cons, not_or]; exact ⟨fun e => by subst e; simp_all, ih⟩
    all_goals simp_all
  | case4 => simp [normalise]

/-! UTF-16 / UTF-32 -/

theorem units_flat (e : Endianness) (us : List Nat) (h : ∀ u ∈ us, u < 65536) (r : List Nat) :
    units (e = .big) (us.flatMap (bytes16 e) ++ r) = (units (e = .big) r).map (us ++ ·) := by
  induction us with
  | nil => simp
  | cons u us ih =>
    have hu := h u (by simp)
    have := ih (fun u hu => h u (by simp [hu]))
    cases e
    · simp only [decide_true] at this
      simp only [List.flatMap_cons, bytes16, List.cons_append, List.nil_append, units, decide_true, if_true, this]
      rw [show 256 * (u / 256) + u % 256 = u by omega]
      cases units true r <;> simp
    · simp only [reduceCtorEq, decide_false] at this
      simp only [List.flatMap_cons, bytes16, List.cons_append, List.nil_append, units, reduceCtorEq, decide_false, this]
      simp only [Bool.false_eq_true, if_false]
      rw [show u % 256 + 256 * (u / 256) = u by omega]
      cases units false r <;> simp

theorem char_bound (c : Char) : c.toNat < 0xD800 ∨ (0xDFFF < c.toNat ∧ c.toNat < 0x110000) := c.valid

theorem scalar_toNat (c : Char) : scalar? c.toNat = some c := by
  rw [scalar_eq, charFromU32, if_pos (char_bound c)]
  simp

theorem encode_lt (c : Char) : ∀ u ∈ encodeUtf16 c, u < 65536 := by
  intro u hu
  have := char_bound c
  unfold encodeUtf16 at hu
  split at hu
  · simp at hu; omega
  · simp at hu; omega

theorem decodeUtf16_encode (c : Char) (us : List Nat) :
    decodeUtf16 (encodeUtf16 c ++ us) = (decodeUtf16 us).map (c :: ·) := by
  have hb := char_bound c
  unfold encodeUtf16
  split
  · rw [List.singleton_append]
    conv => lhs; unfold decodeUtf16
    rw [if_pos (by omega), scalar_toNat]; rfl
  · rename_i h
    rw [List.cons_append, List.singleton_append]
    conv => lhs; unfold decodeUtf16
    rw [if_neg (by omega), if_pos (by omega)]
    simp only
    rw [if_pos (by omega)]
    rw [show 0x10000 + 0x400 * (0xD800 + (c.toNat - 0x10000) / 0x400 - 0xD800) +
      (0xDC00 + (c.toNat - 0x10000) % 0x400 - 0xDC00) = c.toNat by omega, scalar_toNat]
    rfl

end Verif.Strings
