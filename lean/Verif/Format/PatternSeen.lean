import Verif.Format.PatternTokens
import Verif.Format.Props

/-!
# A formatted pattern is read as its tokens
-/
namespace Verif.Format
open Verif.Lexer Verif.Lexer.Spec Verif.Format.Spec Verif.TypeText
open Verif.Pretty (Doc joinWith concat concatLoop)
open Verif.Pretty.Spec (Layout)

section
variable {eof : Nat} {width : List Char → Nat}

theorem seen_then_name {out : List Char} {ks : List Token} {n : Name} (h : SeenSep eof out ks) (hn : IsName n) :
    SeenSep eof (out ++ " as ".toList ++ n) (ks ++ [.keyword .as_, .name n]) := by
  intro z rest hz
  rw [List.append_assoc]
  refine Seen.append (h ' ' _ (by simp [Sep])) ?_
  exact Seen.append (ks := [.keyword .as_]) seen_as (seen_name (stop_sep hz) hn)

/-- Documents in parentheses, with no comma at the end. -/
theorem seen_single {d : Doc} {ds : List Doc} {i : Int} {br : Bool} {out : List Char} {first more : List Token → Prop}
    (hl : Layout (joinWith commaBreak (d :: ds)) i br out)
    (h1 : ∀ i br x, Layout d i br x → ∃ ks, first ks ∧ SeenSep eof x ks)
    (h2 : ∀ i br x, LayAll commaBreak i br ds x → ∃ ks, more ks ∧ SeenSep eof x ks) :
    ∃ a b, first a ∧ more b ∧
      SeenSep eof ('(' :: (out ++ [')'])) (.symbol .leftParen :: (a ++ b ++ [.symbol .rightParen])) := by
  obtain ⟨f, t, rfl, e7, e8⟩ := layout_joinWith hl
  obtain ⟨a, ha, sa⟩ := h1 _ _ _ e7
  obtain ⟨b, hb, sb⟩ := h2 _ _ _ e8
  refine ⟨a, b, ha, hb, ?_⟩
  intro z rest hz
  have sclose : SeenSep eof [')'] [.symbol .rightParen] := fun _ _ _ => seen_symbol (by decide)
  have h3 := (SeenSep.then (SeenSep.then sa (layAll_starts e8) sb) (.inr ⟨')', [], rfl, by simp [Sep]⟩) sclose) z rest hz
  exact Seen.append (t := ['(']) (ks := [.symbol .leftParen]) (seen_symbol (by decide)) h3

/-- What is known of the documents of arguments that there are. -/
def ArgsSeen (eof : Nat) (width : List Char → Nat) (arguments : Args) : Prop :=
  ∃ (d : Doc) (ds : List Doc) (first more : List Token → Prop), argumentDocs width arguments = d :: ds ∧
    (∀ lead a b, first a → more b → ArgsToks lead arguments (lead ++ (a ++ b))) ∧
    (∀ i br x, Layout d i br x → ∃ ks, first ks ∧ SeenSep eof x ks) ∧
    (∀ i br x, LayAll commaBreak i br ds x → ∃ ks, more ks ∧ SeenSep eof x ks)

theorem args_more {arguments : Args} (h : arguments = .nil ∨ ArgsSeen eof width arguments) (i : Int) (br : Bool) (x : List Char)
    (hl : LayAll commaBreak i br (argumentDocs width arguments) x) :
    ∃ ks, ArgsToks [.symbol .comma] arguments ks ∧ SeenSep eof x ks := by
  rcases h with rfl | ⟨d, ds, first, more, e, h1, h2, h3⟩
  · simp only [argumentDocs, LayAll] at hl
    subst hl
    exact ⟨[], by simp [ArgsToks], fun _ _ _ => Seen.nil⟩
  · rw [e] at hl
    obtain ⟨s, x, y, rfl, e1, e2, e3⟩ := hl
    obtain ⟨a, ha, sa⟩ := h2 _ _ _ e2
    obtain ⟨b, hb, sb⟩ := h3 _ _ _ e3
    refine ⟨_, h1 [.symbol .comma] a b ha hb, fun z rest hz => ?_⟩
    exact Seen.append (seen_commaBreak e1).1 (SeenSep.then sa (layAll_starts e3) sb z rest hz)

mutual
theorem pattern_seen : (p : Pat) → Ok p → ∀ i br out, Layout (patternDoc width p) i br out →
    ∃ ks, Toks p ks ∧ SeenSep eof out ks
  | .int value n, ok, i, br, out, hl => by
    rw [patternDoc] at hl
    cases hl
    rw [Ok] at ok
    obtain ⟨t, ok⟩ := ok
    exact ⟨[.int (int value) n], by rw [Toks], fun z rest hz => seen_int hz (formatted_int_is_same ok).1⟩
  | .float value, ok, i, br, out, hl => by
    rw [patternDoc] at hl
    cases hl
    rw [Ok] at ok
    obtain ⟨_, _, _, _, hd⟩ := float_denotes ok.1
    exact ⟨[.float (float value)], by rw [Toks], fun z rest hz => seen_float hz (formatted_float_is_same_partial hd ok.2).2.1⟩
  | .string value, ok, i, br, out, hl => by
    rw [patternDoc] at hl
    rw [Ok] at ok
    rw [layout_string hl]
    exact ⟨[.string value], by rw [Toks], fun z rest hz => seen_string ok⟩
  | .var name, ok, i, br, out, hl => by
    rw [patternDoc] at hl
    cases hl
    rw [Ok] at ok
    exact ⟨[.name name], by rw [Toks], fun z rest hz => seen_name (stop_sep hz) ok⟩
  | .discard name, ok, i, br, out, hl => by
    rw [patternDoc] at hl
    cases hl
    rw [Ok] at ok
    exact ⟨[.discardName name], by rw [Toks], fun z rest hz => seen_discard (stop_sep hz) ok⟩
  | .assign name p, ok, i, br, out, hl => by
    rw [patternDoc] at hl
    rw [Ok] at ok
    split at hl
    next hd =>
      cases hl
      exact ⟨[.name name], by rw [Toks, if_pos hd], fun z rest hz => seen_name (stop_sep hz) ok.1⟩
    next hd =>
      obtain ⟨x, y, rfl, h1, h2⟩ := layout_append hl
      obtain ⟨x, u, rfl, h3, h4⟩ := layout_append h1
      cases h2
      cases h4
      obtain ⟨a, ha, sa⟩ := pattern_seen p ok.2.2 _ _ _ h3
      exact ⟨_, by rw [Toks, if_neg hd]; exact ⟨a, rfl, ha⟩, seen_then_name sa ok.1⟩
  | .stringPrefix left leftName right, ok, i, br, out, hl => by
    rw [Ok] at ok
    cases leftName with
    | none =>
      rw [patternDoc] at hl
      refine ⟨.string left :: [] ++ .symbol .concatenate :: assignNameToks right, by rw [Toks], ?_⟩
      obtain ⟨x, y, u, rfl, h1, h2, h3⟩ := hl
      rw [layout_string h1]
      cases h2
      have h4 := seen_assignName (eof := eof) ok.2.2 h3
      intro z rest hz
      have h5 := Seen.append (ks := [.symbol .concatenate]) seen_concatenate (h4 z rest hz)
      have h6 := Seen.append (seen_string ok.1) h5
      rw [List.append_assoc]
      exact h6
    | some n =>
      rw [patternDoc] at hl
      refine ⟨.string left :: [.keyword .as_, .name n] ++ .symbol .concatenate :: assignNameToks right, by rw [Toks], ?_⟩
      obtain ⟨x, u, rfl, ⟨a, b, c, d, rfl, h1, h2, h3, h4⟩, h5⟩ := layout_append
        (a := .join4 (stringDoc width left) (text width " as ".toList) (text width n) (text width " <> ".toList)) hl
      rw [layout_string h1]
      cases h2
      cases h3
      cases h4
      have h6 := seen_assignName (eof := eof) ok.2.2 h5
      intro z rest hz
      have h7 := Seen.append (ks := [.symbol .concatenate]) seen_concatenate (h6 z rest hz)
      have h8 := seen_then_name (eof := eof) (out := '"' :: left ++ ['"']) (ks := [.string left])
        (fun z rest _ => seen_string ok.1) (ok.2.1 n rfl)
      have h9 := Seen.append (h8 ' ' _ (by simp [Sep])) h7
      rw [List.append_assoc]
      simpa using h9
  | .tuple .nil, ok, i, br, out, hl => by
    rw [patternDoc] at hl
    obtain ⟨br, hl⟩ := layout_grouped hl
    obtain ⟨x, y, rfl, h1, h2⟩ := layout_append hl
    cases h1
    rw [patternDocs] at h2
    cases h2
    refine ⟨[.symbol .hash, .symbol .leftParen, .symbol .rightParen], ?_, fun z rest hz => ?_⟩
    · rw [Toks]
      exact ⟨[], [], rfl, by rw [PatsToks], .inl rfl, fun _ => rfl⟩
    · exact Seen.append (t := ['#']) (ks := [.symbol .hash]) (seen_symbol (by decide))
        (Seen.append (t := ['(']) (u := [')']) (ks := [.symbol .leftParen]) (seen_symbol (by decide)) (seen_symbol (by decide)))
  | .tuple (.cons p ps), ok, i, br, out, hl => by
    rw [patternDoc] at hl
    rw [Ok, AllOk] at ok
    obtain ⟨br, hl⟩ := layout_grouped hl
    obtain ⟨x, y, rfl, h1, h2⟩ := layout_append hl
    cases h1
    rw [patternDocs] at h2
    obtain ⟨a, b, c, ha, hb, hc, _, sd⟩ := seen_wrap (eof := eof) h2 (pattern_seen p ok.1) (patterns_seen ps ok.2)
    refine ⟨_, ?_, fun z rest hz => Seen.append (t := ['#']) (ks := [.symbol .hash]) (seen_symbol (by decide)) (sd z rest hz)⟩
    rw [Toks]
    exact ⟨a ++ b, c, by simp, by rw [PatsToks]; exact ⟨a, b, rfl, ha, hb⟩, hc, fun h => by cases h⟩
  | .list .nil tail, ok, i, br, out, hl => by
    rw [Ok] at ok
    cases tail with
    | none =>
      rw [patternDoc] at hl
      refine ⟨[.symbol .leftSquare, .symbol .rightSquare], by rw [Toks], ?_⟩
      cases hl
      intro z rest hz
      exact Seen.append (t := ['[']) (u := [']']) (ks := [.symbol .leftSquare]) (seen_symbol (by decide))
        (seen_symbol (by decide))
    | some t =>
      rw [patternDoc] at hl
      exact ⟨assignNameToks t, by rw [Toks], seen_assignName (ok.2 t rfl) hl⟩
  | .list (.cons p ps) tail, ok, i, br, out, hl => by
    unfold patternDoc at hl
    rw [Ok, AllOk] at ok
    obtain ⟨br, hl⟩ := layout_grouped hl
    obtain ⟨x, y, rfl, h1, h2⟩ := layout_append hl
    cases h2
    cases tail with
    | none =>
      obtain ⟨u, v, rfl, h3, h4⟩ := layout_append h1
      obtain ⟨o, s, rfl, e5, e6⟩ := layout_append
        (show Layout (openSquareBreak.append (joinWith commaBreak (patternDoc width p :: patternDocs width ps))) _ _ u from h3)
      obtain ⟨f, t, rfl, e7, e8⟩ := layout_joinWith e6
      obtain ⟨a, ha, sa⟩ := pattern_seen p ok.1.1 _ _ _ e7
      obtain ⟨b, hb, sb⟩ := patterns_seen ps ok.1.2 _ _ _ e8
      obtain ⟨c, hc, sc, sc'⟩ := seen_trailingCommaBreak (eof := eof) h4
      have st : Starts (v ++ [']']) := by
        rcases sc' with rfl | ⟨r, rfl⟩
        · exact .inr ⟨']', [], rfl, by simp [Sep]⟩
        · exact .inr ⟨',', _, rfl, by simp [Sep]⟩
      have sclose : SeenSep eof (v ++ [']']) (c ++ [.symbol .rightSquare]) := by
        intro z rest hz
        exact Seen.append (sc _) (seen_symbol (by decide))
      refine ⟨_, by rw [Toks]; exact ⟨a, b, c, rfl, ha, hb, hc⟩, ?_⟩
      intro z rest hz
      have g3 := (SeenSep.then (SeenSep.then sa (layAll_starts e8) sb) st sclose) z rest hz
      have g4 : Seen eof o [.symbol .leftSquare] (f ++ t ++ (v ++ [']']) ++ z :: rest) := seen_openSquareBreak e5
      have g5 := Seen.append g4 g3
      simpa using g5
    | some tl =>
      obtain ⟨u, v, rfl, h3, h4⟩ := layout_append h1
      obtain ⟨u1, dots, rfl, e3a, e3b⟩ := layout_append (show Layout
        (((openSquareBreak.append (joinWith commaBreak (patternDoc width p :: patternDocs width ps))).append commaBreak).append
          _) _ _ u from h3)
      obtain ⟨u2, cm, rfl, e3c, e3d⟩ := layout_append e3a
      obtain ⟨o, s, rfl, e5, e6⟩ := layout_append e3c
      obtain ⟨f, t, rfl, e7, e8⟩ := layout_joinWith e6
      obtain ⟨a, ha, sa⟩ := pattern_seen p ok.1.1 _ _ _ e7
      obtain ⟨b, hb, sb⟩ := patterns_seen ps ok.1.2 _ _ _ e8
      obtain ⟨r', hr'⟩ := (seen_commaBreak (eof := eof) (rest := []) e3d).2
      have sdots : SeenSep eof dots (tailToks tl) := by
        intro z rest hz
        cases tl with
        | discard n =>
          cases e3b
          exact seen_dotDot
        | variable_ n =>
          obtain ⟨x, y, rfl, g1, g2⟩ := layout_append e3b
          cases g1
          cases g2
          exact Seen.append (ks := [.symbol .dotDot]) seen_dotDot (seen_name (stop_sep hz) (ok.2 _ rfl))
      have sv : Starts (v ++ [']']) := by
        rcases (seen_emptyBreak (eof := eof) (rest := []) h4).2 with rfl | ⟨r, rfl⟩
        · exact .inr ⟨']', [], rfl, by simp [Sep]⟩
        · exact .inr ⟨'\n', _, rfl, by simp [Sep]⟩
      have sv' : SeenSep eof (v ++ [']']) ([] ++ [.symbol .rightSquare]) :=
        fun z rest hz => Seen.append (seen_emptyBreak h4).1 (seen_symbol (by decide))
      have st : Starts (cm ++ (dots ++ (v ++ [']']))) := .inr ⟨',', _, by rw [hr']; rfl, by simp [Sep]⟩
      have sclose : SeenSep eof (cm ++ (dots ++ (v ++ [']'])))
          ([.symbol .comma] ++ (tailToks tl ++ ([] ++ [.symbol .rightSquare]))) := by
        intro z rest hz
        exact Seen.append (seen_commaBreak e3d).1 (SeenSep.then sdots sv sv' z rest hz)
      refine ⟨_, by rw [Toks]; exact ⟨a, b, .symbol .comma :: tailToks tl, rfl, ha, hb, rfl⟩, ?_⟩
      intro z rest hz
      have g3 := (SeenSep.then (SeenSep.then sa (layAll_starts e8) sb) st sclose) z rest hz
      have g4 : Seen eof o [.symbol .leftSquare] (f ++ t ++ (cm ++ (dots ++ (v ++ [']']))) ++ z :: rest) :=
        seen_openSquareBreak e5
      have g5 := Seen.append g4 g3
      simpa using g5
  | .ctor module name arguments spread, ok, i, br, out, hl => by
    rw [patternDoc] at hl
    rw [Ok] at ok
    rcases arguments_seen arguments ok.2.2 with rfl | ⟨d, ds, first, more, e, h1, h2, h3⟩
    · cases spread with
      | true =>
        obtain ⟨x, y, rfl, e1, e2⟩ := layout_append (show Layout
          ((constructorName width module name).append (text width "(..)".toList)) i br out from hl)
        cases e2
        refine ⟨constructorToks module name ++ [.symbol .leftParen, .symbol .dotDot, .symbol .rightParen],
          by rw [Toks, if_pos (by rfl), if_pos rfl], fun z rest hz => ?_⟩
        refine Seen.append (seen_constructorName ok.1 ok.2.1 (show Stop ('(' :: _) from stop_open (.inl rfl)) e1) ?_
        exact Seen.append (t := ['(']) (u := "..)".toList) (ks := [.symbol .leftParen]) (seen_symbol (by decide))
          (Seen.append (t := ['.', '.']) (u := [')']) (ks := [.symbol .dotDot]) seen_dotDot (seen_symbol (by decide)))
      | false =>
        refine ⟨constructorToks module name, by rw [Toks, if_pos (by rfl), if_neg (by simp), List.append_nil],
          fun z rest hz => ?_⟩
        exact seen_constructorName ok.1 ok.2.1 (stop_sep hz) (show Layout (constructorName width module name) i br out from hl)
    · have hne : arguments.isEmpty = false := by
        cases arguments with
        | nil => rw [argumentDocs] at e; cases e
        | _ => rfl
      rw [hne] at hl
      simp only [Bool.false_and, Bool.false_eq_true, if_false] at hl
      rw [e] at hl
      cases spread with
      | true =>
        rw [if_pos rfl] at hl
        obtain ⟨br, hl⟩ := layout_grouped hl
        obtain ⟨x, y, rfl, e1, e2⟩ := layout_append hl
        obtain ⟨a, b, c, ha, hb, hc, ⟨r, hr⟩, sd⟩ := seen_wrapSpread (eof := eof) e2 h2 h3
        refine ⟨_, ?_, fun z rest hz => Seen.append (seen_constructorName ok.1 ok.2.1 ?_ e1) (sd z rest hz)⟩
        · rw [Toks, hne, if_neg (by simp)]
          exact ⟨a ++ b, c, by simp, h1 [] a b ha hb, hc⟩
        · rw [hr]
          exact stop_open (.inl rfl)
      | false =>
        rw [if_neg (by simp)] at hl
        split at hl
        · obtain ⟨br, hl⟩ := layout_grouped hl
          obtain ⟨x, y, rfl, e1, e2⟩ := layout_append hl
          obtain ⟨x, y, rfl, e0, e3⟩ := layout_append e1
          obtain ⟨x, u, rfl, e1', e4⟩ := layout_append e0
          cases e2
          cases e4
          obtain ⟨a, b, ha, hb, sd⟩ := seen_single (eof := eof) e3 h2 h3
          refine ⟨constructorToks module name ++ .symbol .leftParen :: (a ++ b ++ [.symbol .rightParen]), ?_,
            fun z rest hz => ?_⟩
          rotate_left
          · have g := Seen.append (seen_constructorName ok.1 ok.2.1 (stop_open (.inl rfl)) e1') (sd z rest hz)
            have e : x ++ ['('] ++ y ++ [')'] = x ++ '(' :: (y ++ [')']) := by simp
            rw [e]
            exact g
          · rw [Toks, hne, if_neg (by simp)]
            exact ⟨a ++ b, [], by simp, h1 [] a b ha hb, .inl rfl⟩
        · obtain ⟨br, hl⟩ := layout_grouped hl
          obtain ⟨x, y, rfl, e1, e2⟩ := layout_append hl
          obtain ⟨a, b, c, ha, hb, hc, ⟨r, hr⟩, sd⟩ := seen_wrap (eof := eof) e2 h2 h3
          refine ⟨_, ?_, fun z rest hz => Seen.append (seen_constructorName ok.1 ok.2.1 ?_ e1) (sd z rest hz)⟩
          · rw [Toks, hne, if_neg (by simp)]
            exact ⟨a ++ b, c, by simp, h1 [] a b ha hb, hc⟩
          · rw [hr]
            exact stop_open (.inl rfl)

theorem patterns_seen : (ps : Pats) → AllOk ps → ∀ i br out, LayAll commaBreak i br (patternDocs width ps) out →
    ∃ ks, PatsToks [.symbol .comma] ps ks ∧ SeenSep eof out ks
  | .nil, _, i, br, out, hl => by
    rw [patternDocs, LayAll] at hl
    subst hl
    exact ⟨[], by rw [PatsToks], fun _ _ _ => Seen.nil⟩
  | .cons p ps, ok, i, br, out, hl => by
    rw [AllOk] at ok
    rw [patternDocs] at hl
    obtain ⟨s, x, y, rfl, e1, e2, e3⟩ := hl
    obtain ⟨a, ha, sa⟩ := pattern_seen p ok.1 _ _ _ e2
    obtain ⟨b, hb, sb⟩ := patterns_seen ps ok.2 _ _ _ e3
    refine ⟨_, by rw [PatsToks]; exact ⟨a, b, rfl, ha, hb⟩, fun z rest hz => ?_⟩
    exact Seen.append (seen_commaBreak e1).1 (SeenSep.then sa (layAll_starts e3) sb z rest hz)

theorem arguments_seen : (as : Args) → ArgsOk as → as = .nil ∨ ArgsSeen eof width as
  | .nil, _ => .inl rfl
  | .plain p as, ok => by
    rw [ArgsOk] at ok
    refine .inr ⟨_, _, Toks p, ArgsToks [.symbol .comma] as, by rw [argumentDocs], fun lead a b ha hb => ?_,
      pattern_seen p ok.1, args_more (arguments_seen as ok.2)⟩
    rw [ArgsToks]
    exact ⟨a, b, rfl, ha, hb⟩
  | .labelled label p as, ok => by
    rw [ArgsOk] at ok
    refine .inr ⟨_, _, fun a => ∃ a', a = [.name label, .symbol .colon] ++ a' ∧ Toks p a', ArgsToks [.symbol .comma] as,
      by rw [argumentDocs], fun lead a b ha hb => ?_, fun i br x hl => ?_, args_more (arguments_seen as ok.2.2)⟩
    · obtain ⟨a', rfl, ha⟩ := ha
      rw [ArgsToks]
      exact ⟨a', b, rfl, ha, hb⟩
    · obtain ⟨x, y, rfl, e1, e2⟩ := layout_append hl
      obtain ⟨x, u, rfl, e3, e4⟩ := layout_append e1
      cases e3
      cases e4
      obtain ⟨a, ha, sa⟩ := pattern_seen p ok.2.1 _ _ _ e2
      refine ⟨_, ⟨a, rfl, ha⟩, fun z rest hz => ?_⟩
      have g := Seen.append (t := [':']) (u := [' '] ++ y) (ks := [.symbol .colon]) (ls := [] ++ a) (rest := z :: rest)
        (seen_symbol (by decide)) (Seen.append seen_space (sa z rest hz))
      have g2 := Seen.append (eof := eof) (seen_name (n := label) (stop_open (.inr (.inr (.inr rfl)))) ok.1) g
      simpa using g2
  | .shorthand label as, ok => by
    rw [ArgsOk] at ok
    refine .inr ⟨_, _, fun a => a = [.name label, .symbol .colon], ArgsToks [.symbol .comma] as, by rw [argumentDocs],
      fun lead a b ha hb => ?_, fun i br x hl => ?_, args_more (arguments_seen as ok.2)⟩
    · rw [ArgsToks]
      exact ⟨b, by rw [ha], hb⟩
    · obtain ⟨x, y, rfl, e1, e2⟩ := layout_append hl
      cases e1
      cases e2
      refine ⟨_, rfl, fun z rest hz => ?_⟩
      exact Seen.append (t := label) (u := [':']) (ks := [.name label])
        (seen_name (stop_open (.inr (.inr (.inr rfl)))) ok.1) (seen_symbol (by decide))
end

end
end Verif.Format
