import Verif.Format.PatternSpec
import Verif.Format.Props

/-!
# The normal form of a pattern: what it matches, and how it is written
-/
namespace Verif.Format
open Verif.Lexer.Spec Verif.Format.Spec

section
variable {F : Type} {m : Meaning F}

theorem float_meaning (hm : m.Sound) {t : List Char} (h : Reads (.float t) t) (hz : PlainZeros t) :
    m.float (float t) = m.float t := by
  obtain ⟨_, _, _, _, hd⟩ := float_denotes h
  obtain ⟨m', p', h1, h2⟩ := (formatted_float_is_same_partial hd hz).1
  exact (hm _ _ _ _ _ _ _ _ hd h1 h2).symm

theorem labels_normal (i f : List Char → List Char) : (as : Args) → labels (normalArgs i f as) = labels as
  | .nil => by rw [normalArgs]
  | .plain _ as => by rw [normalArgs, labels, labels, labels_normal i f as]
  | .labelled _ _ as => by rw [normalArgs, labels, labels, labels_normal i f as]
  | .shorthand _ as => by rw [normalArgs, labels, labels, labels_normal i f as]

theorem ignored_matches {p : Pat} (h : IsIgnored p = true) (v : Val F) (b : List (Name × Val F)) :
    Matches m p v b ↔ b = [] := by
  cases p <;> first | (simp [Matches]; done) | cases h

theorem matches_list_none {ps : Pats} {v : Val F} {b : List (Name × Val F)} :
    Matches m (.list ps none) v b ↔ ∃ vs, v = .list vs ∧ AllMatch m ps vs b := by
  rw [Matches]
  constructor
  · rintro ⟨vs, after, b', rfl, h, rfl, rfl⟩
    exact ⟨vs, by simp, h⟩
  · rintro ⟨vs, rfl, h⟩
    exact ⟨vs, [], b, by simp, h, rfl, rfl⟩

theorem matches_list_some {ps : Pats} {t : AssignName} {v : Val F} {b : List (Name × Val F)} :
    Matches m (.list ps (some t)) v b ↔
      ∃ vs after b', v = .list (vs ++ after) ∧ AllMatch m ps vs b' ∧ b = b' ++ bound (.list after) t := by
  rw [Matches]

theorem normal_list {i f : List Char → List Char} {p : Pat} {ps : Pats} {tail : Option AssignName} :
    normal i f (.list (.cons p ps) tail) = .list (normals i f (.cons p ps))
      (tail.map fun t => match t with | .variable_ n => .variable_ n | .discard _ => .discard ['_']) := by
  cases tail with
  | none => rw [normal]; rfl
  | some t =>
    cases t <;>
    · rw [normal]
      · rfl
      · rintro ⟨⟩

mutual
theorem normal_matches (hm : m.Sound) : (p : Pat) → Ok p → ∀ v b, Matches m p v b → Matches m (normal int float p) v b
  | .int _ _, ok, v, b, h => by rw [normal]; rw [Matches] at h ⊢; exact h
  | .float t, ok, v, b, h => by
    rw [Ok] at ok
    rw [normal, Matches, float_meaning hm ok.1 ok.2]
    rwa [Matches] at h
  | .string _, ok, v, b, h => by rw [normal]; exact h
  | .var _, ok, v, b, h => by rw [normal]; exact h
  | .discard _, ok, v, b, h => by rw [normal]; exact h
  | .assign n p, ok, v, b, h => by
    rw [Ok] at ok
    rw [Matches] at h
    obtain ⟨b', rfl, h⟩ := h
    rw [normal]
    split
    next hd =>
      rw [(ignored_matches hd v b').1 h, Matches]
      rfl
    next hd =>
      rw [Matches]
      exact ⟨b', rfl, normal_matches hm p ok.2.2 v b' h⟩
  | .stringPrefix _ _ _, ok, v, b, h => by rw [normal]; exact h
  | .tuple ps, ok, v, b, h => by
    rw [Ok] at ok
    rw [Matches] at h
    obtain ⟨vs, rfl, h⟩ := h
    rw [normal, Matches]
    exact ⟨vs, rfl, normals_match hm ps ok vs b h⟩
  | .list .nil none, ok, v, b, h => by rw [normal, normals]; exact h
  | .list .nil (some t), ok, v, b, h => by
    obtain ⟨vs, after, b', rfl, h1, rfl⟩ := matches_list_some.1 h
    rw [AllMatch] at h1
    obtain ⟨rfl, rfl⟩ := h1
    cases t <;> (rw [normal, Matches]; rfl)
  | .list (.cons p ps) tail, ok, v, b, h => by
    rw [Ok] at ok
    rw [normal_list]
    cases tail with
    | none =>
      obtain ⟨vs, rfl, h1⟩ := matches_list_none.1 h
      exact matches_list_none.2 ⟨vs, rfl, normals_match hm _ ok.1 vs b h1⟩
    | some t =>
      obtain ⟨vs, after, b', rfl, h1, rfl⟩ := matches_list_some.1 h
      refine matches_list_some.2 ⟨vs, after, b', rfl, normals_match hm _ ok.1 vs b' h1, ?_⟩
      cases t <;> rfl
  | .ctor module name as spread, ok, v, b, h => by
    rw [Ok] at ok
    rw [Matches] at h
    obtain ⟨vs, h1, h2⟩ := h
    rw [normal, Matches, labels_normal]
    exact ⟨vs, h1, normalArgs_match hm as ok.2.2 vs b h2⟩

theorem normals_match (hm : m.Sound) : (ps : Pats) → AllOk ps → ∀ vs b, AllMatch m ps vs b → AllMatch m (normals int float ps) vs b
  | .nil, ok, vs, b, h => by rw [normals]; exact h
  | .cons p ps, ok, vs, b, h => by
    rw [AllOk] at ok
    rw [AllMatch] at h
    obtain ⟨v, vs', b1, b2, rfl, rfl, h1, h2⟩ := h
    rw [normals, AllMatch]
    exact ⟨v, vs', b1, b2, rfl, rfl, normal_matches hm p ok.1 v b1 h1, normals_match hm ps ok.2 vs' b2 h2⟩

theorem normalArgs_match (hm : m.Sound) : (as : Args) → ArgsOk as → ∀ vs b, ArgsMatch m as vs b → ArgsMatch m (normalArgs int float as) vs b
  | .nil, ok, vs, b, h => by rw [normalArgs]; exact h
  | .plain p as, ok, vs, b, h => by
    rw [ArgsOk] at ok
    rw [ArgsMatch] at h
    obtain ⟨v, vs', b1, b2, rfl, rfl, h1, h2⟩ := h
    rw [normalArgs, ArgsMatch]
    exact ⟨v, vs', b1, b2, rfl, rfl, normal_matches hm p ok.1 v b1 h1, normalArgs_match hm as ok.2 vs' b2 h2⟩
  | .labelled _ p as, ok, vs, b, h => by
    rw [ArgsOk] at ok
    rw [ArgsMatch] at h
    obtain ⟨v, vs', b1, b2, rfl, rfl, h1, h2⟩ := h
    rw [normalArgs, ArgsMatch]
    exact ⟨v, vs', b1, b2, rfl, rfl, normal_matches hm p ok.2.1 v b1 h1, normalArgs_match hm as ok.2.2 vs' b2 h2⟩
  | .shorthand _ as, ok, vs, b, h => by
    rw [ArgsOk] at ok
    rw [ArgsMatch] at h
    obtain ⟨v, vs', b2, rfl, rfl, h2⟩ := h
    rw [normalArgs, ArgsMatch]
    exact ⟨v, vs', b2, rfl, rfl, normalArgs_match hm as ok.2 vs' b2 h2⟩
end

mutual
theorem matches_normal (hm : m.Sound) : (p : Pat) → Ok p → NoBareTail p → ∀ v b, Matches m (normal int float p) v b → Matches m p v b
  | .int _ _, ok, hb, v, b, h => by rw [normal] at h; rw [Matches] at h ⊢; exact h
  | .float t, ok, hb, v, b, h => by
    rw [Ok] at ok
    rw [normal, Matches, float_meaning hm ok.1 ok.2] at h
    rwa [Matches]
  | .string _, ok, hb, v, b, h => by rw [normal] at h; exact h
  | .var _, ok, hb, v, b, h => by rw [normal] at h; exact h
  | .discard _, ok, hb, v, b, h => by rw [normal] at h; exact h
  | .assign n p, ok, hb, v, b, h => by
    rw [Ok] at ok
    rw [NoBareTail] at hb
    rw [normal] at h
    rw [Matches]
    split at h
    next hd =>
      rw [Matches] at h
      exact ⟨[], h, (ignored_matches hd v []).2 rfl⟩
    next hd =>
      rw [Matches] at h
      obtain ⟨b', rfl, h⟩ := h
      exact ⟨b', rfl, matches_normal hm p ok.2.2 hb v b' h⟩
  | .stringPrefix _ _ _, ok, hb, v, b, h => by rw [normal] at h; exact h
  | .tuple ps, ok, hb, v, b, h => by
    rw [Ok] at ok
    rw [NoBareTail] at hb
    rw [normal, Matches] at h
    obtain ⟨vs, rfl, h⟩ := h
    rw [Matches]
    exact ⟨vs, rfl, match_normals hm ps ok hb vs b h⟩
  | .list .nil none, ok, hb, v, b, h => by rw [normal, normals] at h; exact h
  | .list .nil (some t), ok, hb, v, b, h => by
    rw [NoBareTail] at hb
    cases hb.1 rfl
  | .list (.cons p ps) tail, ok, hb, v, b, h => by
    rw [Ok] at ok
    rw [NoBareTail] at hb
    rw [normal_list] at h
    cases tail with
    | none =>
      obtain ⟨vs, rfl, h1⟩ := matches_list_none.1 h
      exact matches_list_none.2 ⟨vs, rfl, match_normals hm _ ok.1 hb.2 vs b h1⟩
    | some t =>
      obtain ⟨vs, after, b', rfl, h1, rfl⟩ := matches_list_some.1 h
      refine matches_list_some.2 ⟨vs, after, b', rfl, match_normals hm _ ok.1 hb.2 vs b' h1, ?_⟩
      cases t <;> rfl
  | .ctor module name as spread, ok, hb, v, b, h => by
    rw [Ok] at ok
    rw [NoBareTail] at hb
    rw [normal, Matches, labels_normal] at h
    obtain ⟨vs, h1, h2⟩ := h
    rw [Matches]
    exact ⟨vs, h1, match_normalArgs hm as ok.2.2 hb vs b h2⟩

theorem match_normals (hm : m.Sound) : (ps : Pats) → AllOk ps → NoBareTails ps → ∀ vs b, AllMatch m (normals int float ps) vs b →
    AllMatch m ps vs b
  | .nil, ok, hb, vs, b, h => by rw [normals] at h; exact h
  | .cons p ps, ok, hb, vs, b, h => by
    rw [AllOk] at ok
    rw [NoBareTails] at hb
    rw [normals, AllMatch] at h
    obtain ⟨v, vs', b1, b2, rfl, rfl, h1, h2⟩ := h
    rw [AllMatch]
    exact ⟨v, vs', b1, b2, rfl, rfl, matches_normal hm p ok.1 hb.1 v b1 h1, match_normals hm ps ok.2 hb.2 vs' b2 h2⟩

theorem match_normalArgs (hm : m.Sound) : (as : Args) → ArgsOk as → NoBareTailArgs as → ∀ vs b,
    ArgsMatch m (normalArgs int float as) vs b → ArgsMatch m as vs b
  | .nil, ok, hb, vs, b, h => by rw [normalArgs] at h; exact h
  | .plain p as, ok, hb, vs, b, h => by
    rw [ArgsOk] at ok
    rw [NoBareTailArgs] at hb
    rw [normalArgs, ArgsMatch] at h
    obtain ⟨v, vs', b1, b2, rfl, rfl, h1, h2⟩ := h
    rw [ArgsMatch]
    exact ⟨v, vs', b1, b2, rfl, rfl, matches_normal hm p ok.1 hb.1 v b1 h1, match_normalArgs hm as ok.2 hb.2 vs' b2 h2⟩
  | .labelled _ p as, ok, hb, vs, b, h => by
    rw [ArgsOk] at ok
    rw [NoBareTailArgs] at hb
    rw [normalArgs, ArgsMatch] at h
    obtain ⟨v, vs', b1, b2, rfl, rfl, h1, h2⟩ := h
    rw [ArgsMatch]
    exact ⟨v, vs', b1, b2, rfl, rfl, matches_normal hm p ok.2.1 hb.1 v b1 h1, match_normalArgs hm as ok.2.2 hb.2 vs' b2 h2⟩
  | .shorthand _ as, ok, hb, vs, b, h => by
    rw [ArgsOk] at ok
    rw [NoBareTailArgs] at hb
    rw [normalArgs, ArgsMatch] at h
    obtain ⟨v, vs', b2, rfl, rfl, h2⟩ := h
    rw [ArgsMatch]
    exact ⟨v, vs', b2, rfl, rfl, match_normalArgs hm as ok.2 hb vs' b2 h2⟩
end

end

/-! ### Formatting again -/

section
variable {width : List Char → Nat}

theorem normal_discards {i f : List Char → List Char} {p : Pat} (hb : NoBareTail p) :
    (normal i f p).isDiscard = p.isDiscard := by
  cases p with
  | assign n q =>
    rw [normal]
    split <;> rfl
  | list ps tail =>
    cases ps with
    | nil =>
      rw [NoBareTail] at hb
      cases hb.1 rfl
      rw [normal]
      rfl
    | cons p ps =>
      rw [normal_list]
      rfl
  | _ => rw [normal] <;> rfl

theorem normal_breakable {i f : List Char → List Char} {p : Pat} (hb : NoBareTail p) :
    isBreakable (normal i f p) = isBreakable p := by
  cases p with
  | assign n q =>
    rw [normal]
    split <;> rfl
  | list ps tail =>
    cases ps with
    | nil =>
      rw [NoBareTail] at hb
      cases hb.1 rfl
      rw [normal]
      rfl
    | cons p ps =>
      rw [normal_list]
      rfl
  | ctor module name as spread =>
    rw [normal]
    cases as <;> (rw [normalArgs] <;> rfl)
  | _ => rw [normal] <;> rfl

theorem normalArgs_empty {i f : List Char → List Char} {as : Args} : (normalArgs i f as).isEmpty = as.isEmpty := by
  cases as <;> (rw [normalArgs] <;> rfl)

theorem normalArgs_single {i f : List Char → List Char} {as : Args} (hb : NoBareTailArgs as) :
    singleBreakable (normalArgs i f as) = singleBreakable as := by
  cases as with
  | nil => rw [normalArgs]
  | plain p as =>
    rw [NoBareTailArgs] at hb
    cases as with
    | nil => rw [normalArgs, normalArgs]; exact normal_breakable hb.1
    | _ => rw [normalArgs, normalArgs]; rfl
  | labelled l p as =>
    rw [NoBareTailArgs] at hb
    cases as with
    | nil => rw [normalArgs, normalArgs]; exact normal_breakable hb.1
    | _ => rw [normalArgs, normalArgs]; rfl
  | shorthand l as =>
    rw [normalArgs]
    rfl

mutual
theorem doc_normal : (p : Pat) → Ok p → NoBareTail p → patternDoc width (normal int float p) = patternDoc width p
  | .int v n, ok, hb => by
    rw [Ok] at ok
    obtain ⟨_, ok⟩ := ok
    rw [normal, patternDoc, patternDoc, (formatted_int_is_same ok).2]
  | .float t, ok, hb => by
    rw [Ok] at ok
    obtain ⟨_, _, _, _, hd⟩ := float_denotes ok.1
    rw [normal, patternDoc, patternDoc, (formatted_float_is_same_partial hd ok.2).2.2]
  | .string _, ok, hb => by rw [normal]
  | .var _, ok, hb => by rw [normal]
  | .discard _, ok, hb => by rw [normal]
  | .assign n p, ok, hb => by
    rw [Ok] at ok
    rw [NoBareTail] at hb
    have e := doc_normal p ok.2.2 hb
    have hd : p.isDiscard = IsIgnored p := by cases p <;> rfl
    rw [normal]
    split
    next hi =>
      rw [patternDoc, patternDoc, hd, hi, if_pos rfl]
    next hi =>
      rw [patternDoc, patternDoc, normal_discards hb, e]
  | .stringPrefix _ _ _, ok, hb => by rw [normal]
  | .tuple ps, ok, hb => by
    rw [Ok] at ok
    rw [NoBareTail] at hb
    rw [normal, patternDoc, patternDoc, docs_normal ps ok hb]
  | .list .nil none, ok, hb => by rw [normal, normals]
  | .list .nil (some t), ok, hb => by
    rw [NoBareTail] at hb
    cases hb.1 rfl
  | .list (.cons p ps) tail, ok, hb => by
    rw [Ok, AllOk] at ok
    rw [NoBareTail, NoBareTails] at hb
    have e1 := doc_normal p ok.1.1 hb.2.1
    have e2 := docs_normal ps ok.1.2 hb.2.2
    rw [normal_list, normals]
    cases tail with
    | none => simp only [Option.map_none, patternDoc, e1, e2]
    | some t => cases t <;> simp only [Option.map_some, patternDoc, e1, e2]
  | .ctor module name as spread, ok, hb => by
    rw [Ok] at ok
    rw [NoBareTail] at hb
    rw [normal, patternDoc, patternDoc, argumentDocs_normal as ok.2.2 hb, normalArgs_empty, normalArgs_single hb]

theorem docs_normal : (ps : Pats) → AllOk ps → NoBareTails ps → patternDocs width (normals int float ps) = patternDocs width ps
  | .nil, ok, hb => by rw [normals]
  | .cons p ps, ok, hb => by
    rw [AllOk] at ok
    rw [NoBareTails] at hb
    rw [normals, patternDocs, patternDocs, doc_normal p ok.1 hb.1, docs_normal ps ok.2 hb.2]

theorem argumentDocs_normal : (as : Args) → ArgsOk as → NoBareTailArgs as →
    argumentDocs width (normalArgs int float as) = argumentDocs width as
  | .nil, ok, hb => by rw [normalArgs]
  | .plain p as, ok, hb => by
    rw [ArgsOk] at ok
    rw [NoBareTailArgs] at hb
    rw [normalArgs, argumentDocs, argumentDocs, doc_normal p ok.1 hb.1, argumentDocs_normal as ok.2 hb.2]
  | .labelled _ p as, ok, hb => by
    rw [ArgsOk] at ok
    rw [NoBareTailArgs] at hb
    rw [normalArgs, argumentDocs, argumentDocs, doc_normal p ok.2.1 hb.1, argumentDocs_normal as ok.2.2 hb.2]
  | .shorthand _ as, ok, hb => by
    rw [ArgsOk] at ok
    rw [NoBareTailArgs] at hb
    rw [normalArgs, argumentDocs, argumentDocs, argumentDocs_normal as ok.2 hb]
end

end
end Verif.Format
