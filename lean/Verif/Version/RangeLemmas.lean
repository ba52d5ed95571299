import Verif.Version.Parse

namespace Verif.Version

open Verif.Decimal

theorem precedes_asymm (a b : Version) (h1 : Spec.Precedes a b) (h2 : Spec.Precedes b a) : False :=
  precedes_irrefl a (precedes_trans _ _ _ h1 h2)

theorem precedes_split (a b c : Version) (h : Spec.Precedes a c) : Spec.Precedes a b ∨ Spec.Precedes b c := by
  rcases trichotomy a b with h1 | h1 | h1
  · exact Or.inl h1
  · right; rwa [← precedes_congr_left h1]
  · right; exact precedes_trans _ _ _ h1 h

def AboveLower (l : Bound) (v : Version) : Prop := match l with
  | .included l => ¬ Spec.Precedes v l
  | .excluded l => Spec.Precedes l v
  | .unbounded => True

def BelowUpper (u : Bound) (v : Version) : Prop := match u with
  | .included u => ¬ Spec.Precedes u v
  | .excluded u => Spec.Precedes v u
  | .unbounded => True

theorem belowLower_iff (l : Bound) (v : Version) : (!belowLower l v) = true ↔ AboveLower l v := by
  cases l <;> simp [belowLower, AboveLower]
  · rw [← lt_iff]; simp
  · rw [← Bool.not_eq_true, le_iff]; simp

theorem aboveUpper_iff (l : Bound) (v : Version) : (!aboveUpper l v) = true ↔ BelowUpper l v := by
  cases l <;> simp [aboveUpper, BelowUpper]
  · rw [← lt_iff]; simp
  · rw [← Bool.not_eq_true, le_iff]; simp

theorem contains_iff (r : Range) (v : Version) :
    r.contains v = true ↔ ∃ s ∈ r, AboveLower s.1 v ∧ BelowUpper s.2 v := by
  simp only [Range.contains, List.any_eq_true, Bool.and_eq_true, belowLower_iff, aboveUpper_iff]

theorem maxLower_iff (a b : Bound) (v : Version) :
    AboveLower (maxLower a b) v ↔ AboveLower a v ∧ AboveLower b v := by
  have ht := precedes_trans
  have hs := precedes_split
  have ha := precedes_asymm
  cases a <;> cases b <;> simp only [maxLower] <;> (try split) <;> simp only [AboveLower] <;>
    (try simp only [le_iff] at *) <;> grind

theorem minUpper_iff (a b : Bound) (v : Version) :
    BelowUpper (minUpper a b) v ↔ BelowUpper a v ∧ BelowUpper b v := by
  have ht := precedes_trans
  have hs := precedes_split
  have ha := precedes_asymm
  cases a <;> cases b <;> simp only [minUpper] <;> (try split) <;> simp only [BelowUpper] <;>
    (try simp only [le_iff] at *) <;> grind

theorem validSegment_of (l u : Bound) (v : Version) (h1 : AboveLower l v) (h2 : BelowUpper u v) :
    validSegment l u = true := by
  have ht := precedes_trans
  have hs := precedes_split
  have ha := precedes_asymm
  cases l <;> cases u <;> simp only [validSegment] <;> simp only [AboveLower, BelowUpper] at h1 h2 <;>
    (first | rw [le_iff] | rw [lt_iff]) <;> grind

theorem contains_inter (a b : Range) (v : Version) :
    (a.inter b).contains v = true ↔ a.contains v = true ∧ b.contains v = true := by
  simp only [contains_iff, Range.inter, List.mem_flatMap, List.mem_filterMap]
  constructor
  · rintro ⟨s, ⟨x, hx, y, hy, h⟩, h1, h2⟩
    split at h
    · simp at h; subst h
      rw [maxLower_iff] at h1
      rw [minUpper_iff] at h2
      exact ⟨⟨x, hx, h1.1, h2.1⟩, ⟨y, hy, h1.2, h2.2⟩⟩
    · simp at h
  · rintro ⟨⟨x, hx, h1, h2⟩, ⟨y, hy, h3, h4⟩⟩
    have hl : AboveLower (maxLower x.1 y.1) v := (maxLower_iff _ _ _).2 ⟨h1, h3⟩
    have hu : BelowUpper (minUpper x.2 y.2) v := (minUpper_iff _ _ _).2 ⟨h2, h4⟩
    refine ⟨(maxLower x.1 y.1, minUpper x.2 y.2), ⟨x, hx, y, hy, ?_⟩, hl, hu⟩
    rw [if_pos (validSegment_of _ _ v hl hu)]

theorem contains_union (a b : Range) (v : Version) :
    (a.union b).contains v = true ↔ a.contains v = true ∨ b.contains v = true := by
  simp [Range.contains, Range.union, List.any_append]

theorem contains_singleton (w v : Version) :
    (Range.singleton w).contains v = true ↔ Spec.SameRelease v w := by
  simp only [contains_iff, Range.singleton, List.mem_singleton]
  constructor
  · rintro ⟨s, rfl, h1, h2⟩
    simp only [AboveLower, BelowUpper] at h1 h2
    rcases trichotomy v w with h | h | h
    · exact absurd h h1
    · exact h
    · exact absurd h h2
  · intro h
    refine ⟨_, rfl, ?_, ?_⟩
    · simp only [AboveLower]; rw [precedes_congr_left h]; exact precedes_irrefl _
    · simp only [BelowUpper]; rw [precedes_congr_right h]; exact precedes_irrefl _

theorem contains_higherThan (w v : Version) :
    (Range.higherThan w).contains v = true ↔ ¬ Spec.Precedes v w := by
  simp [contains_iff, Range.higherThan, AboveLower, BelowUpper]

theorem contains_strictlyLowerThan (w v : Version) :
    (Range.strictlyLowerThan w).contains v = true ↔ Spec.Precedes v w := by
  simp [contains_iff, Range.strictlyLowerThan, AboveLower, BelowUpper]

/-! ### White space and operators in the lexer -/

def WS (w : List Char) : Prop := ∀ c ∈ w, isWs c = true

def wsToks (w : List Char) : List Token := if w.isEmpty then [] else [.whitespace]

/-- The text does not go on with white space. -/
def NoWs (s : List Char) : Prop := ∀ c, s.head? = some c → isWs c = false

theorem ws_facts (c : Char) (h : isWs c = true) : c = ' ' ∨ c = '\t' ∨ c = '\n' ∨ c = '\r' := by
  simp [isWs] at h; tauto

theorem noAlnum_ws (w r : List Char) (h : WS w) (hr : NoAlnum r) : NoAlnum (w ++ r) := by
  cases w with
  | nil => exact hr
  | cons c w =>
    intro d hd
    simp at hd; subst hd
    rcases ws_facts c (h c (by simp)) with rfl | rfl | rfl | rfl <;> decide

theorem dropWhile_ws (w r : List Char) (h : WS w) (hr : NoWs r) : (w ++ r).dropWhile isWs = r := by
  induction w with
  | nil =>
    cases r with
    | nil => rfl
    | cons c r => simp [hr c rfl]
  | cons c w ih =>
    have := h c (by simp)
    simp [this, ih (fun c hc => h c (by simp [hc]))]

theorem lex_ws (w r : List Char) (h : WS w) (hr : NoWs r) :
    lex (w ++ r) = (lex r).map (wsToks w ++ ·) := by
  cases w with
  | nil => simp [wsToks]
  | cons c w =>
    have hc := h c (by simp)
    have hn : next (c :: (w ++ r)) = some (some (.whitespace, r)) := by
      have h1 : next (c :: (w ++ r)) = nextOne (c :: (w ++ r)) := by
        rcases ws_facts c hc with rfl | rfl | rfl | rfl <;> simp [next]
      rw [h1, nextOne, if_pos hc, dropWhile_ws w r (fun c hc => h c (by simp [hc])) hr]
    rw [List.cons_append, lex_cons hn]
    simp [wsToks]

theorem skipWs_wsToks (w : List Char) (ts : List Token) (h : ts.head? ≠ some .whitespace) :
    skipWs (wsToks w ++ ts) = ts := by
  unfold wsToks; split
  · cases ts with
    | nil => rfl
    | cons t ts => cases t <;> simp_all [skipWs]
  · rfl

/-- A version without build metadata, inside a longer text. -/
theorem lex_versionText {v : Version} {ts : List Token} (h : VersionToks v ts) (hb : v.build = none)
    (rest : List Char) (hr : NoAlnum rest) : lex (v.show ++ rest) = (lex rest).map (ts ++ ·) := by
  obtain ⟨hM, hm, hp, ps, bs, h1, h2, rfl⟩ := h
  rw [hb] at h2; cases h2
  have e : v.show ++ rest = showNat v.major ++ '.' :: (showNat v.minor ++ '.' :: (showNat v.patch ++
      (showPrePart v.pre ++ rest))) := by
    simp [Version.show, showPrePart, hb, showBuild]
  rw [e, lex_showNat _ hM _ (noAlnum_dot _), lex_dot, lex_showNat _ hm _ (noAlnum_dot _), lex_dot,
    lex_showNat _ hp _ (noAlnum_prePart v.pre _ hr), lex_prePart h1 _ hr]
  cases lex rest <;> simp

/-- Tokens that may follow a version inside a requirement. -/
def Ends (r : List Token) : Prop :=
  r.head? ≠ some .hyphen ∧ r.head? ≠ some .dot ∧ r.head? ≠ some .plus

theorem plusBuild_ends {r : List Token} (h : Ends r) : plusBuild r = some (none, r) := by
  obtain ⟨_, _, h3⟩ := h
  cases r with
  | nil => rfl
  | cons t r => cases t <;> simp_all [plusBuild]

theorem version_in {v : Version} {ts : List Token} (h : VersionToks v ts) (hb : v.build = none)
    (r : List Token) (hr : Ends r) : version (ts ++ r) = some (v, skipWs r) := by
  obtain ⟨hM, hm, hp, ps, bs, h1, h2, rfl⟩ := h
  rw [hb] at h2; cases h2
  obtain ⟨M, m, p, pr, b⟩ := v
  simp only at hb; subst hb
  simp [version, skipWs, numeric, dotNumeric, pre_toks h1 r hr.1 hr.2.1, plusBuild_ends hr]

theorem version_in_ws {v : Version} {ts : List Token} (h : VersionToks v ts) (hb : v.build = none)
    (w : List Char) (r : List Token) (hr : Ends r) :
    version (wsToks w ++ (ts ++ r)) = some (v, skipWs r) := by
  rw [← version_in h hb r hr]
  unfold wsToks; split
  · rfl
  · obtain ⟨hM, hm, hp, ps, bs, h1, h2, rfl⟩ := h
    simp [version, skipWs]

/-! ### Comparators -/

/-- The tokens of a comparator and the range it is turned into. -/
inductive CompToks (w : List Char) : Spec.Comparator → List Token → Range → Prop
  | bare (v ts) (h : VersionToks v ts) (hb : v.build = none) : CompToks w (.bare v) ts (.singleton v)
  | eq (v ts) (h : VersionToks v ts) (hb : v.build = none) :
      CompToks w (.eq v) (.eq :: (wsToks w ++ ts)) (.singleton v)
  | ne (v ts) (h : VersionToks v ts) (hb : v.build = none) (u) (hu : v.bumpPatch = some u) :
      CompToks w (.ne v) (.notEq :: (wsToks w ++ ts)) (Range.union (.strictlyLowerThan v) (.higherThan u))
  | gt (v ts) (h : VersionToks v ts) (hb : v.build = none) (u) (hu : v.bumpPatch = some u) :
      CompToks w (.gt v) (.gt :: (wsToks w ++ ts)) (.higherThan u)
  | ge (v ts) (h : VersionToks v ts) (hb : v.build = none) :
      CompToks w (.ge v) (.gtEq :: (wsToks w ++ ts)) (.higherThan v)
  | lt (v ts) (h : VersionToks v ts) (hb : v.build = none) :
      CompToks w (.lt v) (.lt :: (wsToks w ++ ts)) (.strictlyLowerThan v)
  | le (v ts) (h : VersionToks v ts) (hb : v.build = none) (u) (hu : v.bumpPatch = some u) :
      CompToks w (.le v) (.ltEq :: (wsToks w ++ ts)) (.strictlyLowerThan u)
  | approx2 (M m : Nat) (p ps) (hp : PreToks p ps) (hM : M ≤ u32Max) (hm : m ≤ u32Max)
      (u) (hu : (⟨M, m, 0, p, none⟩ : Version).bumpMajor = some u) :
      CompToks w (.approx2 M m p) (.pessimistic :: (wsToks w ++ (.numeric M :: .dot :: .numeric m :: ps)))
        (Range.inter (.higherThan ⟨M, m, 0, p, none⟩) (.strictlyLowerThan u))
  | approx3 (v ts) (h : VersionToks v ts) (hb : v.build = none) (u) (hu : v.bumpMinor = some u) :
      CompToks w (.approx3 v) (.pessimistic :: (wsToks w ++ ts))
        (Range.inter (.higherThan v) (.strictlyLowerThan u))

theorem numHead {v : Version} {ts : List Token} (h : VersionToks v ts) : ∃ r, ts = .numeric v.major :: r := by
  obtain ⟨_, _, _, ps, bs, _, _, rfl⟩ := h
  exact ⟨_, rfl⟩

theorem showNat_noWs (n : Nat) (r : List Char) : NoWs (showNat n ++ r) := by
  have h1 := showNat_ne_nil n
  have h2 := showNat_digits n
  cases hs : showNat n with
  | nil => exact absurd hs h1
  | cons c cs =>
    intro d hd
    simp at hd; subst hd
    have := digit_alnum c (h2 c (by rw [hs]; simp))
    exact (alnum_facts c this).1

theorem show_eq (v : Version) (hb : v.build = none) : Spec.versionText v = v.show := by
  have key : ∀ p : List Identifier, Spec.versionText.preText p = showPrePart p := by
    intro p
    unfold Spec.versionText.preText showPrePart
    split
    · rfl
    · rename_i hne
      rw [if_neg (by simpa using hne)]
      congr 1
      clear hne
      induction p with
      | nil => rfl
      | cons i is ih =>
        cases is with
        | nil => cases i <;> rfl
        | cons j js =>
          rw [List.map_cons, List.map_cons, Spec.join, ← List.map_cons, ih,
            show showPre (i :: j :: js) = i.show ++ '.' :: showPre (j :: js) from rfl]
          · cases i <;> rfl
          · simp
  simp [Spec.versionText, Version.show, key, showPrePart, hb, showBuild]

theorem preText_eq (p : List Identifier) : Spec.versionText.preText p = showPrePart p := by
  have := show_eq ⟨0, 0, 0, p, none⟩ rfl
  simp [Spec.versionText, Version.show, showBuild] at this
  rw [this]
  unfold showPrePart
  simp

theorem noWs_show (v : Version) (r : List Char) : NoWs (v.show ++ r) := by
  unfold Version.show
  rw [List.append_assoc]
  exact showNat_noWs _ _

theorem next_gt (r : List Char) (h : r.head? ≠ some '=') : next ('>' :: r) = some (some (.gt, r)) := by
  cases r with
  | nil => rfl
  | cons c r =>
    simp at h
    simp [next, nextOne, isWs, h]

theorem next_lt (r : List Char) (h : r.head? ≠ some '=') : next ('<' :: r) = some (some (.lt, r)) := by
  cases r with
  | nil => rfl
  | cons c r =>
    simp at h
    simp [next, nextOne, isWs, h]

theorem ws_version_head (w : List Char) (hw : WS w) (v : Version) (r : List Char) :
    (w ++ (v.show ++ r)).head? ≠ some '=' := by
  cases w with
  | nil =>
    unfold Version.show
    have h1 := showNat_ne_nil v.major
    have h2 := showNat_digits v.major
    cases hs : showNat v.major with
    | nil => exact absurd hs h1
    | cons c cs =>
      have := digit_alnum c (h2 c (by rw [hs]; simp))
      simpa using (alnum_facts c this).2.2.2.2.2.2.2.2
  | cons c w =>
    have := ws_facts c (hw c (by simp))
    rcases this with rfl | rfl | rfl | rfl <;> simp

theorem lex_comp {w : List Char} (hw : WS w) {c : Spec.Comparator} {ts : List Token} {rg : Range}
    (h : CompToks w c ts rg) (rest : List Char) (hr : NoAlnum rest) :
    lex (c.text w ++ rest) = (lex rest).map (ts ++ ·) := by
  have vt : ∀ v vts, VersionToks v vts → v.build = none →
      lex (w ++ (v.show ++ rest)) = (lex rest).map ((wsToks w ++ vts) ++ ·) := by
    intro v vts h hb
    rw [lex_ws w _ hw (noWs_show v rest), lex_versionText h hb rest hr]
    cases lex rest <;> simp
  cases h with
  | bare v ts h hb =>
    rw [Spec.Comparator.text, show_eq v hb]
    exact lex_versionText h hb rest hr
  | eq v ts h hb =>
    rw [Spec.Comparator.text, show_eq v hb]
    have : "==".toList ++ w ++ v.show ++ rest = '=' :: '=' :: (w ++ (v.show ++ rest)) := by simp
    rw [this, lex_cons (t := .eq) (r := w ++ (v.show ++ rest)) (by simp [next]), vt v _ h hb]
    cases lex rest <;> simp
  | ne v ts h hb u hu =>
    rw [Spec.Comparator.text, show_eq v hb]
    have : "!=".toList ++ w ++ v.show ++ rest = '!' :: '=' :: (w ++ (v.show ++ rest)) := by simp
    rw [this, lex_cons (t := .notEq) (r := w ++ (v.show ++ rest)) (by simp [next]), vt v _ h hb]
    cases lex rest <;> simp
  | gt v ts h hb u hu =>
    rw [Spec.Comparator.text, show_eq v hb]
    have : ">".toList ++ w ++ v.show ++ rest = '>' :: (w ++ (v.show ++ rest)) := by simp
    rw [this, lex_cons (next_gt _ (ws_version_head w hw v rest)), vt v _ h hb]
    cases lex rest <;> simp
  | ge v ts h hb =>
    rw [Spec.Comparator.text, show_eq v hb]
    have : ">=".toList ++ w ++ v.show ++ rest = '>' :: '=' :: (w ++ (v.show ++ rest)) := by simp
    rw [this, lex_cons (t := .gtEq) (r := w ++ (v.show ++ rest)) (by simp [next]), vt v _ h hb]
    cases lex rest <;> simp
  | lt v ts h hb =>
    rw [Spec.Comparator.text, show_eq v hb]
    have : "<".toList ++ w ++ v.show ++ rest = '<' :: (w ++ (v.show ++ rest)) := by simp
    rw [this, lex_cons (next_lt _ (ws_version_head w hw v rest)), vt v _ h hb]
    cases lex rest <;> simp
  | le v ts h hb u hu =>
    rw [Spec.Comparator.text, show_eq v hb]
    have : "<=".toList ++ w ++ v.show ++ rest = '<' :: '=' :: (w ++ (v.show ++ rest)) := by simp
    rw [this, lex_cons (t := .ltEq) (r := w ++ (v.show ++ rest)) (by simp [next]), vt v _ h hb]
    cases lex rest <;> simp
  | approx2 M m p ps hp hM hm u hu =>
    rw [Spec.Comparator.text, preText_eq]
    have : "~>".toList ++ w ++ showNat M ++ ['.'] ++ showNat m ++ showPrePart p ++ rest =
        '~' :: '>' :: (w ++ (showNat M ++ '.' :: (showNat m ++ (showPrePart p ++ rest)))) := by simp
    rw [this, lex_cons (t := .pessimistic) (r := w ++ _) (by simp [next]; rfl),
      lex_ws w _ hw (showNat_noWs M _), lex_showNat _ hM _ (noAlnum_dot _), lex_dot,
      lex_showNat _ hm _ (noAlnum_prePart p _ hr), lex_prePart hp _ hr]
    cases lex rest <;> simp
  | approx3 v ts h hb u hu =>
    rw [Spec.Comparator.text, show_eq v hb]
    have : "~>".toList ++ w ++ v.show ++ rest = '~' :: '>' :: (w ++ (v.show ++ rest)) := by simp
    rw [this, lex_cons (t := .pessimistic) (r := w ++ (v.show ++ rest)) (by simp [next]), vt v _ h hb]
    cases lex rest <;> simp

/-- `comparator` reads one comparator; white space after it may or may not already be consumed. -/
theorem comparator_toks {w : List Char} {c : Spec.Comparator} {ts : List Token} {rg : Range}
    (h : CompToks w c ts rg) (r : List Token) (hr : Ends r) :
    ∃ r', comparator (ts ++ r) = some (rg, r') ∧ (r' = r ∨ r' = skipWs r) := by
  cases h with
  | bare v ts h hb =>
    obtain ⟨t, rfl⟩ := numHead h
    refine ⟨_, ?_, Or.inr rfl⟩
    rw [List.cons_append, comparator, ← List.cons_append, version_in h hb r hr]; rfl
  | eq v ts h hb =>
    refine ⟨_, ?_, Or.inr rfl⟩
    simp [comparator, version_in_ws h hb w r hr]
  | ne v ts h hb u hu =>
    refine ⟨_, ?_, Or.inr rfl⟩
    simp [comparator, version_in_ws h hb w r hr, hu]
  | gt v ts h hb u hu =>
    refine ⟨_, ?_, Or.inr rfl⟩
    simp [comparator, version_in_ws h hb w r hr, hu]
  | ge v ts h hb =>
    refine ⟨_, ?_, Or.inr rfl⟩
    simp [comparator, version_in_ws h hb w r hr]
  | lt v ts h hb =>
    refine ⟨_, ?_, Or.inr rfl⟩
    simp [comparator, version_in_ws h hb w r hr]
  | le v ts h hb u hu =>
    refine ⟨_, ?_, Or.inr rfl⟩
    simp [comparator, version_in_ws h hb w r hr, hu]
  | approx2 M m p ps hp hM hm u hu =>
    refine ⟨_, ?_, Or.inl rfl⟩
    rw [List.cons_append, comparator, List.append_assoc, skipWs_wsToks _ _ (by simp)]
    have hd : ∀ (x : List Token), ps ++ r ≠ .dot :: x := by
      cases hp with
      | none => intro x hx; simp at hx; subst hx; exact hr.2.1 rfl
      | some is ts h => intro x hx; simp at hx
    have ho : optionalPatch (ps ++ r) = some (false, 0, ps ++ r) := by
      unfold optionalPatch; split
      · rename_i x hx; exact absurd hx (hd _)
      · rfl
    simp only [pessimistic, List.cons_append, numeric, dotNumeric, Option.bind_eq_bind, Option.bind_some, ho]
    simp [pre_toks hp r hr.1 hr.2.1, plusBuild_ends hr, hu]
  | approx3 v ts h hb u hu =>
    refine ⟨_, ?_, Or.inl rfl⟩
    obtain ⟨hM, hm, hp, ps, bs, h1, h2, rfl⟩ := h
    rw [hb] at h2; cases h2
    obtain ⟨M, m, p, pr, b⟩ := v
    simp only at hb; subst hb
    rw [List.cons_append, comparator, List.append_assoc, skipWs_wsToks _ _ (by simp)]
    simp [pessimistic, numeric, dotNumeric, optionalPatch, pre_toks h1 r hr.1 hr.2.1, plusBuild_ends hr, hu]

/-! ### Whole requirements -/

theorem compToks_exists (w : List Char) (c : Spec.Comparator) (h : Spec.ReadableComparator c) :
    ∃ ts rg, CompToks w c ts rg := by
  have bp : ∀ v : Version, v.patch < Spec.maxU32 → ∃ u, v.bumpPatch = some u := by
    intro v hv
    rw [← u32Max_eq] at hv
    exact ⟨_, by rw [Version.bumpPatch, if_neg (by omega)]⟩
  cases c with
  | bare v => obtain ⟨h1, h2⟩ := h; obtain ⟨ts, h⟩ := (versionToks_iff v).2 h1; exact ⟨_, _, .bare v ts h h2⟩
  | eq v => obtain ⟨h1, h2⟩ := h; obtain ⟨ts, h⟩ := (versionToks_iff v).2 h1; exact ⟨_, _, .eq v ts h h2⟩
  | ge v => obtain ⟨h1, h2⟩ := h; obtain ⟨ts, h⟩ := (versionToks_iff v).2 h1; exact ⟨_, _, .ge v ts h h2⟩
  | lt v => obtain ⟨h1, h2⟩ := h; obtain ⟨ts, h⟩ := (versionToks_iff v).2 h1; exact ⟨_, _, .lt v ts h h2⟩
  | ne v =>
    obtain ⟨h1, h2, h3⟩ := h; obtain ⟨ts, h⟩ := (versionToks_iff v).2 h1; obtain ⟨u, hu⟩ := bp v h3
    exact ⟨_, _, .ne v ts h h2 u hu⟩
  | gt v =>
    obtain ⟨h1, h2, h3⟩ := h; obtain ⟨ts, h⟩ := (versionToks_iff v).2 h1; obtain ⟨u, hu⟩ := bp v h3
    exact ⟨_, _, .gt v ts h h2 u hu⟩
  | le v =>
    obtain ⟨h1, h2, h3⟩ := h; obtain ⟨ts, h⟩ := (versionToks_iff v).2 h1; obtain ⟨u, hu⟩ := bp v h3
    exact ⟨_, _, .le v ts h h2 u hu⟩
  | approx2 M m p =>
    obtain ⟨h1, h2, h3⟩ := h
    rw [← u32Max_eq] at h1 h2
    obtain ⟨ps, hp⟩ := (preToks_iff p).2 h3
    exact ⟨_, _, .approx2 M m p ps hp (by omega) h2 _ (by rw [Version.bumpMajor, if_neg (by show M ≠ _; omega)])⟩
  | approx3 v =>
    obtain ⟨h1, h2, h3⟩ := h
    rw [← u32Max_eq] at h3
    obtain ⟨ts, h⟩ := (versionToks_iff v).2 h1
    exact ⟨_, _, .approx3 v ts h h2 _ (by rw [Version.bumpMinor, if_neg (by omega)])⟩

/-- Comparing against `x.y.(z+1)` is the same as comparing against `x.y.z` when no pre-releases
are involved. -/
theorem bump_release (v w u : Version) (hv : v.pre = []) (hw : w.pre = []) (hu : w.bumpPatch = some u) :
    Spec.Precedes v u ↔ ¬ Spec.Precedes w v := by
  unfold Version.bumpPatch at hu
  split at hu
  · simp at hu
  · simp at hu; subst hu
    simp only [Spec.Precedes, hv, hw, Spec.PreLt]
    simp
    omega

/-- Where the code's treatment of a comparator is exact. -/
def ExactFor (v : Version) : Spec.Comparator → Prop
  | .ne w | .gt w | .le w => v.pre = [] ∧ w.pre = []
  | _ => True

theorem comp_sem {w : List Char} {c : Spec.Comparator} {ts : List Token} {rg : Range}
    (h : CompToks w c ts rg) (v : Version) (he : ExactFor v c) :
    rg.contains v = true ↔ Spec.Satisfies v c := by
  cases h with
  | bare x ts h hb => rw [contains_singleton]; rfl
  | eq x ts h hb => rw [contains_singleton]; rfl
  | ne x ts h hb u hu =>
    rw [contains_union, contains_strictlyLowerThan, contains_higherThan, bump_release v x u he.1 he.2 hu,
      Spec.Satisfies, not_not]
    constructor
    · rintro (h | h) hs
      · rw [precedes_congr_left hs] at h; exact precedes_irrefl _ h
      · rw [precedes_congr_right hs] at h; exact precedes_irrefl _ h
    · intro hs
      rcases trichotomy v x with h | h | h
      · exact Or.inl h
      · exact absurd h hs
      · exact Or.inr h
  | gt x ts h hb u hu =>
    rw [contains_higherThan, bump_release v x u he.1 he.2 hu, not_not]; rfl
  | ge x ts h hb => rw [contains_higherThan]; rfl
  | lt x ts h hb => rw [contains_strictlyLowerThan]; rfl
  | le x ts h hb u hu =>
    rw [contains_strictlyLowerThan, bump_release v x u he.1 he.2 hu]; rfl
  | approx2 M m p ps hp hM hm u hu =>
    rw [contains_inter, contains_higherThan, contains_strictlyLowerThan]
    unfold Version.bumpMajor at hu
    split at hu
    · simp at hu
    · simp at hu; subst hu; rfl
  | approx3 x ts h hb u hu =>
    rw [contains_inter, contains_higherThan, contains_strictlyLowerThan]
    unfold Version.bumpMinor at hu
    split at hu
    · simp at hu
    · simp at hu; subst hu; rfl

/-- A comparator with its tokens and range. -/
structure Item (w : List Char) where
  comp : Spec.Comparator
  toks : List Token
  range : Range
  ok : CompToks w comp toks range

theorem comp_head {w : List Char} {c : Spec.Comparator} {ts : List Token} {rg : Range}
    (h : CompToks w c ts rg) : ∃ t r, ts = t :: r ∧ t ≠ .whitespace := by
  cases h with
  | bare v ts h hb => obtain ⟨r, rfl⟩ := numHead h; exact ⟨_, _, rfl, by simp⟩
  | _ => exact ⟨_, _, rfl, by simp⟩

def joinToks (kw : Token) : List (List Token) → List Token
  | [] => []
  | [t] => t
  | t :: ts => t ++ .whitespace :: kw :: .whitespace :: joinToks kw ts

def andAll : Option Range → List Range → Option Range
  | acc, [] => acc
  | acc, r :: rs => andAll (some (andRange acc r)) rs

theorem andAll_contains (acc : Option Range) (rs : List Range) (r : Range) (h : andAll acc rs = some r)
    (v : Version) : r.contains v = true ↔ (∀ a, acc = some a → a.contains v = true) ∧ ∀ x ∈ rs, x.contains v = true := by
  induction rs generalizing acc with
  | nil => simp [andAll] at h; subst h; simp
  | cons x xs ih =>
    rw [andAll] at h
    rw [ih _ h]
    cases acc with
    | none => simp [andRange]
    | some a => simp [andRange, contains_inter, and_assoc]

/-- What can follow an alternative: nothing or white space and `or`. -/
def AltEnd (r : List Token) : Prop := r = [] ∨ ∃ x, r = .whitespace :: .or :: x

theorem altEnd_ends {r : List Token} (h : AltEnd r) : Ends r := by
  rcases h with rfl | ⟨x, rfl⟩ <;> simp [Ends]

theorem altEnd_skip {r : List Token} (h : AltEnd r) : skipWs (skipWs r) = skipWs r := by
  rcases h with rfl | ⟨x, rfl⟩ <;> simp [skipWs]

theorem ands_toks {w : List Char} (items : List (Item w)) (hne : items ≠ []) (acc : Option Range)
    (r : List Token) (hr : AltEnd r) (n : Nat) (hn : items.length ≤ n) :
    ∃ rg, andAll acc (items.map (·.range)) = some rg ∧
      andsLoop n acc (joinToks .and (items.map (·.toks)) ++ r) = some (rg, skipWs r) := by
  induction items generalizing acc n with
  | nil => exact absurd rfl hne
  | cons it its ih =>
    cases n with
    | zero => simp at hn
    | succ n =>
      obtain ⟨t, tr, ht, htw⟩ := comp_head it.ok
      cases its with
      | nil =>
        refine ⟨_, rfl, ?_⟩
        obtain ⟨r', hc, hr'⟩ := comparator_toks it.ok r (altEnd_ends hr)
        simp only [List.map_cons, List.map_nil, joinToks]
        rw [andsLoop]
        have hsk : skipWs (it.toks ++ r) = it.toks ++ r := by
          rw [ht]; cases t <;> simp_all [skipWs]
        rw [hsk]
        have hne : it.toks ++ r ≠ [] := by rw [ht]; simp
        split
        · contradiction
        · rw [hc]
          simp only [Option.bind_eq_bind, Option.bind_some]
          have hs : skipWs r' = skipWs r := by
            rcases hr' with rfl | rfl
            · rfl
            · exact altEnd_skip hr
          rw [hs]
          have hna : ∀ x, skipWs r ≠ .and :: x := by
            rcases hr with rfl | ⟨x, rfl⟩ <;> simp [skipWs]
          split
          · rename_i x hx; exact absurd hx (hna _)
          · rw [altEnd_skip hr]
      | cons jt jts =>
        obtain ⟨rg, h1, h2⟩ := ih (by simp) (some (andRange acc it.range)) n (by simp at hn ⊢; omega)
        refine ⟨rg, h1, ?_⟩
        simp only [List.map_cons, joinToks, List.append_assoc] at h2 ⊢
        set rest := joinToks Token.and (jt.toks :: List.map (fun x => x.toks) jts) with hrest
        have he : Ends (.whitespace :: .and :: .whitespace :: rest ++ r) := by simp [Ends]
        obtain ⟨r', hc, hr'⟩ := comparator_toks it.ok _ he
        rw [andsLoop]
        have hsk : skipWs (it.toks ++ (.whitespace :: .and :: .whitespace :: rest ++ r)) =
            it.toks ++ (.whitespace :: .and :: .whitespace :: rest ++ r) := by
          rw [ht]; cases t <;> simp_all [skipWs]
        rw [hsk]
        have hne : it.toks ++ (.whitespace :: .and :: .whitespace :: rest ++ r) ≠ [] := by rw [ht]; simp
        split
        · contradiction
        · rw [hc]
          simp only [Option.bind_eq_bind, Option.bind_some]
          have hs : skipWs r' = .and :: .whitespace :: (rest ++ r) := by
            rcases hr' with rfl | rfl <;> simp [skipWs]
          rw [hs]
          simp only [expectWs, Option.bind_some]
          exact h2

def orAll : Option Range → List Range → Option Range
  | acc, [] => acc
  | none, r :: rs => orAll (some r) rs
  | some a, r :: rs => orAll (some (a.union r)) rs

theorem orAll_contains (acc : Option Range) (rs : List Range) (r : Range) (h : orAll acc rs = some r)
    (v : Version) : r.contains v = true ↔ (∃ a, acc = some a ∧ a.contains v = true) ∨ ∃ x ∈ rs, x.contains v = true := by
  induction rs generalizing acc with
  | nil => simp [orAll] at h; subst h; simp
  | cons x xs ih =>
    cases acc with
    | none =>
      rw [orAll] at h
      rw [ih _ h]; simp
    | some a =>
      rw [orAll] at h
      rw [ih _ h]; simp [contains_union, or_assoc]

theorem joinToks_length (kw : Token) (l : List (List Token)) : l.length ≤ (joinToks kw l).length + 1 := by
  induction l with
  | nil => simp
  | cons t ts ih =>
    cases ts with
    | nil => simp
    | cons u us => simp only [joinToks, List.length_append, List.length_cons] at ih ⊢; omega

theorem or_toks {w : List Char} (alts : List (List (Item w))) (hne : alts ≠ []) (ha : ∀ a ∈ alts, a ≠ [])
    (acc : Option Range) (n : Nat) (hn : alts.length ≤ n) :
    ∃ rg rgs, List.Forall₂ (fun (a : List (Item w)) r => andAll none (a.map (·.range)) = some r) alts rgs ∧
      orAll acc rgs = some rg ∧
      rangeLoop n acc (joinToks .or (alts.map fun a => joinToks .and (a.map (·.toks)))) = some (rg, []) := by
  induction alts generalizing acc n with
  | nil => exact absurd rfl hne
  | cons a as ih =>
    cases n with
    | zero => simp at hn
    | succ n =>
      cases as with
      | nil =>
        obtain ⟨rg, h1, h2⟩ := ands_toks a (ha a (by simp)) none [] (Or.inl rfl)
          ((joinToks .and (a.map (·.toks))).length + 1) (by
            have := joinToks_length .and (a.map (·.toks))
            simpa using this)
        rw [List.append_nil] at h2
        refine ⟨orRange acc rg, [rg],
          List.Forall₂.cons h1 .nil, by cases acc <;> rfl, ?_⟩
        simp only [List.map_cons, List.map_nil, joinToks]
        rw [rangeLoop, h2]
        simp [skipWs]
      | cons b bs =>
        simp only [List.map_cons, joinToks]
        set rest := joinToks Token.or (joinToks Token.and (List.map (fun x => x.toks) b) ::
          List.map (fun a => joinToks Token.and (List.map (fun x => x.toks) a)) bs) with hrest
        set here := joinToks Token.and (List.map (fun x => x.toks) a) with hhere
        obtain ⟨rg, h1, h2⟩ := ands_toks a (ha a (by simp)) none (.whitespace :: .or :: .whitespace :: rest)
          (Or.inr ⟨_, rfl⟩)
          ((here ++ .whitespace :: .or :: .whitespace :: rest).length + 1) (by
            have := joinToks_length .and (a.map (·.toks))
            rw [List.length_map] at this
            change a.length ≤ here.length + 1 at this
            rw [List.length_append]
            omega)
        obtain ⟨rg', rgs, h3, h4, h5⟩ := ih (by simp) (fun x hx => ha x (by simp at hx ⊢; tauto))
          (some (orRange acc rg)) n (by simp at hn ⊢; omega)
        refine ⟨rg', rg :: rgs, List.Forall₂.cons h1 h3, by cases acc <;> exact h4, ?_⟩
        rw [rangeLoop, h2]
        simp only [skipWs, Option.bind_eq_bind, Option.bind_some, expectWs]
        exact h5

/-! ### Lexing whole requirements -/

theorem ws_noAlnum_append (sp r : List Char) (hsp : WS sp) (hne : sp ≠ []) : NoAlnum (sp ++ r) := by
  cases sp with
  | nil => exact absurd rfl hne
  | cons c sp =>
    intro d hd
    simp at hd; subst hd
    rcases ws_facts c (hsp c (by simp)) with rfl | rfl | rfl | rfl <;> decide

theorem wsToks_ne {sp : List Char} (h : sp ≠ []) : wsToks sp = [.whitespace] := by
  unfold wsToks; rw [if_neg (by simpa using h)]

/-- A piece of text whose tokens are known in every context, and that starts with something visible. -/
structure Piece (s : List Char) (ts : List Token) : Prop where
  lexes : ∀ rest, NoAlnum rest → lex (s ++ rest) = (lex rest).map (ts ++ ·)
  visible : ∀ rest, NoWs (s ++ rest)

theorem lex_join (sp : List Char) (hsp : WS sp) (hne : sp ≠ []) (kw : List Char) (kt : Token)
    (hk : ∀ rest, lex (kw ++ (sp ++ rest)) = (lex (sp ++ rest)).map (kt :: ·))
    (hkv : ∀ rest, NoWs (kw ++ rest))
    (ps : List (List Char × List Token)) (hps : ∀ p ∈ ps, Piece p.1 p.2) (hpne : ps ≠ []) :
    Piece (Spec.joinKw sp kw (ps.map Prod.fst)) (joinToks kt (ps.map Prod.snd)) := by
  induction ps with
  | nil => exact absurd rfl hpne
  | cons p ps ih =>
    cases ps with
    | nil => exact hps p (by simp)
    | cons q qs =>
      have hp := hps p (by simp)
      have ih := ih (fun p hp => hps p (by simp at hp ⊢; tauto)) (by simp)
      set restT := Spec.joinKw sp kw ((q :: qs).map Prod.fst) with hrT
      set restK := joinToks kt ((q :: qs).map Prod.snd) with hrK
      have e1 : Spec.joinKw sp kw ((p :: q :: qs).map Prod.fst) = p.1 ++ sp ++ kw ++ sp ++ restT := rfl
      have e2 : joinToks kt ((p :: q :: qs).map Prod.snd) =
          p.2 ++ .whitespace :: kt :: .whitespace :: restK := rfl
      rw [e1, e2]
      constructor
      · intro rest hr
        have : p.1 ++ sp ++ kw ++ sp ++ restT ++ rest = p.1 ++ (sp ++ (kw ++ (sp ++ (restT ++ rest)))) := by simp
        rw [this, hp.lexes _ (ws_noAlnum_append sp _ hsp hne), lex_ws sp _ hsp (hkv _), hk,
          lex_ws sp _ hsp (ih.visible rest), ih.lexes rest hr, wsToks_ne hne]
        cases lex rest <;> simp
      · intro rest
        have := hp.visible (sp ++ kw ++ sp ++ restT ++ rest)
        simpa using this

theorem comp_piece {w : List Char} (hw : WS w) (it : Item w) : Piece (it.comp.text w) it.toks := by
  refine ⟨fun rest hr => lex_comp hw it.ok rest hr, ?_⟩
  intro rest
  obtain ⟨c, ts, rg, h⟩ := it
  have lit : ∀ (c : Char) (r : List Char), isWs c = false → NoWs (c :: r) := by
    intro c r h d hd; simp at hd; subst hd; exact h
  cases h with
  | bare v ts h hb => simp only [Spec.Comparator.text]; rw [show_eq v hb]; exact noWs_show v rest
  | eq v ts h hb => exact lit '=' _ (by decide)
  | ne v ts h hb => exact lit '!' _ (by decide)
  | gt v ts h hb => exact lit '>' _ (by decide)
  | ge v ts h hb => exact lit '>' _ (by decide)
  | lt v ts h hb => exact lit '<' _ (by decide)
  | le v ts h hb => exact lit '<' _ (by decide)
  | approx2 => exact lit '~' _ (by decide)
  | approx3 => exact lit '~' _ (by decide)

theorem lex_requirement (sp w : List Char) (hsp : WS sp) (hne : sp ≠ []) (hw : WS w)
    (alts : List (List (Item w))) (hne' : alts ≠ []) (ha : ∀ a ∈ alts, a ≠ []) :
    lex (Spec.requirementText sp w (alts.map fun a => a.map (·.comp))) =
      some (joinToks .or (alts.map fun a => joinToks .and (a.map (·.toks)))) := by
  have visA : ∀ rest, NoWs ("and".toList ++ rest) := by
    intro rest c hc; simp at hc; subst hc; decide
  have visO : ∀ rest, NoWs ("or".toList ++ rest) := by
    intro rest c hc; simp at hc; subst hc; decide
  have pA : ∀ a ∈ alts, Piece (Spec.joinKw sp "and".toList ((a.map (·.comp)).map (·.text w)))
      (joinToks .and (a.map (·.toks))) := by
    intro a ha'
    have := lex_join sp hsp hne "and".toList .and (fun rest => lex_cons (by simp [next])) visA
      (a.map fun it => (it.comp.text w, it.toks))
      (by intro p hp; obtain ⟨it, -, rfl⟩ := List.mem_map.1 hp; exact comp_piece hw it)
      (by simpa using ha a ha')
    simpa [List.map_map, Function.comp_def] using this
  have := lex_join sp hsp hne "or".toList .or (fun rest => lex_cons (by simp [next])) visO
    (alts.map fun a => (Spec.joinKw sp "and".toList ((a.map (·.comp)).map (·.text w)), joinToks .and (a.map (·.toks))))
    (by intro p hp; obtain ⟨a, ha', rfl⟩ := List.mem_map.1 hp; exact pA a ha')
    (by simpa using hne')
  have h := this.lexes [] noAlnum_nil
  simp only [List.map_map, Function.comp_def, List.append_nil, lex_nil] at h
  rw [Spec.requirementText, List.map_map]
  simpa [Function.comp_def] using h

/-- Parsing the text of a requirement succeeds, and gives the union of the intersections of the
ranges of its comparators. -/
theorem parseRange_text (sp w : List Char) (hsp : WS sp) (hne : sp ≠ []) (hw : WS w)
    (alts : List (List (Item w))) (hne' : alts ≠ []) (ha : ∀ a ∈ alts, a ≠ []) :
    ∃ rg, parseRange (Spec.requirementText sp w (alts.map fun a => a.map (·.comp))) = some rg ∧
      ∀ v, rg.contains v = true ↔ ∃ a ∈ alts, ∀ it ∈ a, it.range.contains v = true := by
  obtain ⟨rg, rgs, h1, h2, h3⟩ := or_toks alts hne' ha none
    ((joinToks .or (alts.map fun a => joinToks .and (a.map (·.toks)))).length + 1) (by
      have := joinToks_length .or (alts.map fun a => joinToks .and (a.map (·.toks)))
      simpa using this)
  refine ⟨rg, ?_, ?_⟩
  · simp [parseRange, lex_requirement sp w hsp hne hw alts hne' ha, h3]
  · intro v
    rw [orAll_contains _ _ _ h2]
    simp only [reduceCtorEq, false_and, exists_false, false_or]
    clear h2 h3 hne' ha
    induction h1 with
    | nil => simp
    | cons hab hrest ih =>
      have := andAll_contains none _ _ hab v
      simp only [List.mem_cons, exists_eq_or_imp, ih, this]
      simp

/-! ### Lowest version -/

/-- Segments as the parser builds them: valid, and with a lower bound that is included or absent. -/
def SegsOK (r : Range) : Prop := ∀ s ∈ r, (∀ v, s.1 ≠ .excluded v) ∧ validSegment s.1 s.2 = true

/-- Every segment has an included lower bound. -/
def LowInc (r : Range) : Prop := ∀ s ∈ r, ∃ v, s.1 = .included v

theorem segsOK_inter {a b : Range} (ha : SegsOK a) (hb : SegsOK b) : SegsOK (a.inter b) := by
  intro s hs
  simp only [Range.inter, List.mem_flatMap, List.mem_filterMap] at hs
  obtain ⟨x, hx, y, hy, h⟩ := hs
  split at h
  · rename_i hv
    simp at h; subst h
    refine ⟨?_, hv⟩
    have h1 := (ha x hx).1
    have h2 := (hb y hy).1
    simp only
    revert h1 h2
    cases x.1 <;> cases y.1 <;> simp [maxLower]
    split <;> simp
  · simp at h

theorem segsOK_union {a b : Range} (ha : SegsOK a) (hb : SegsOK b) : SegsOK (a.union b) := by
  intro s hs
  rcases List.mem_append.1 hs with h | h
  · exact ha s h
  · exact hb s h

theorem lowInc_inter {a b : Range} (ha : SegsOK a) (hb : SegsOK b) (h : LowInc a ∨ LowInc b) :
    LowInc (a.inter b) := by
  intro s hs
  simp only [Range.inter, List.mem_flatMap, List.mem_filterMap] at hs
  obtain ⟨x, hx, y, hy, hh⟩ := hs
  split at hh
  · simp at hh; subst hh
    have h1 := (ha x hx).1
    have h2 := (hb y hy).1
    have h3 : (∃ v, x.1 = .included v) ∨ (∃ v, y.1 = .included v) := by
      rcases h with h | h
      · exact Or.inl (h x hx)
      · exact Or.inr (h y hy)
    simp only
    revert h1 h2 h3
    cases x.1 <;> cases y.1 <;> simp [maxLower]
    split <;> simp
  · simp at hh

theorem segsOK_singleton (v : Version) : SegsOK (.singleton v) ∧ LowInc (.singleton v) := by
  refine ⟨?_, ?_⟩
  · intro s hs; simp [Range.singleton] at hs; subst hs
    exact ⟨by simp, by simp only [validSegment]; rw [le_iff]; exact precedes_irrefl v⟩
  · intro s hs; simp [Range.singleton] at hs; subst hs; exact ⟨v, rfl⟩

theorem segsOK_higherThan (v : Version) : SegsOK (.higherThan v) ∧ LowInc (.higherThan v) := by
  refine ⟨?_, ?_⟩
  · intro s hs; simp [Range.higherThan] at hs; subst hs
    exact ⟨by simp, rfl⟩
  · intro s hs; simp [Range.higherThan] at hs; subst hs; exact ⟨v, rfl⟩

theorem segsOK_lower (v : Version) : SegsOK (.strictlyLowerThan v) := by
  intro s hs; simp [Range.strictlyLowerThan] at hs; subst hs
  exact ⟨by simp, rfl⟩

/-- Comparators that bound a version from below. -/
def BoundsBelow : Spec.Comparator → Prop
  | .ne _ | .lt _ | .le _ => False
  | _ => True

theorem comp_segs {w : List Char} {c : Spec.Comparator} {ts : List Token} {rg : Range}
    (h : CompToks w c ts rg) : SegsOK rg ∧ (BoundsBelow c → LowInc rg) := by
  cases h with
  | bare v ts h hb => exact ⟨(segsOK_singleton v).1, fun _ => (segsOK_singleton v).2⟩
  | eq v ts h hb => exact ⟨(segsOK_singleton v).1, fun _ => (segsOK_singleton v).2⟩
  | ne v ts h hb u hu => exact ⟨segsOK_union (segsOK_lower v) (segsOK_higherThan u).1, fun h => h.elim⟩
  | gt v ts h hb u hu => exact ⟨(segsOK_higherThan u).1, fun _ => (segsOK_higherThan u).2⟩
  | ge v ts h hb => exact ⟨(segsOK_higherThan v).1, fun _ => (segsOK_higherThan v).2⟩
  | lt v ts h hb => exact ⟨segsOK_lower v, fun h => h.elim⟩
  | le v ts h hb u hu => exact ⟨segsOK_lower u, fun h => h.elim⟩
  | approx2 M m p ps hp hM hm u hu =>
    exact ⟨segsOK_inter (segsOK_higherThan _).1 (segsOK_lower u),
      fun _ => lowInc_inter (segsOK_higherThan _).1 (segsOK_lower u) (Or.inl (segsOK_higherThan _).2)⟩
  | approx3 v ts h hb u hu =>
    exact ⟨segsOK_inter (segsOK_higherThan _).1 (segsOK_lower u),
      fun _ => lowInc_inter (segsOK_higherThan _).1 (segsOK_lower u) (Or.inl (segsOK_higherThan _).2)⟩

theorem andAll_segs (acc : Option Range) (rs : List Range) (r : Range) (h : andAll acc rs = some r)
    (h1 : ∀ a, acc = some a → SegsOK a) (h2 : ∀ x ∈ rs, SegsOK x) :
    SegsOK r ∧ (((∃ a, acc = some a ∧ LowInc a) ∨ ∃ x ∈ rs, LowInc x) → LowInc r) := by
  induction rs generalizing acc with
  | nil =>
    simp [andAll] at h; subst h
    exact ⟨h1 r rfl, by simp⟩
  | cons x xs ih =>
    rw [andAll] at h
    have hx := h2 x (by simp)
    have hacc : SegsOK (andRange acc x) := by
      cases acc with
      | none => exact hx
      | some a => exact segsOK_inter (h1 a rfl) hx
    obtain ⟨i1, i2⟩ := ih _ h (by intro a ha; simp at ha; subst ha; exact hacc) (fun y hy => h2 y (by simp [hy]))
    refine ⟨i1, ?_⟩
    rintro (⟨a, rfl, ha⟩ | ⟨y, hy, hyl⟩)
    · exact i2 (Or.inl ⟨_, rfl, lowInc_inter (h1 a rfl) hx (Or.inl ha)⟩)
    · rcases List.mem_cons.1 hy with rfl | hy
      · refine i2 (Or.inl ⟨_, rfl, ?_⟩)
        cases acc with
        | none => exact hyl
        | some a => exact lowInc_inter (h1 a rfl) hx (Or.inr hyl)
      · exact i2 (Or.inr ⟨y, hy, hyl⟩)

theorem orAll_segs (P : Range → Prop) (hP : ∀ a b, P a → P b → P (a.union b)) (acc : Option Range)
    (rs : List Range) (r : Range) (h : orAll acc rs = some r)
    (h1 : ∀ a, acc = some a → P a) (h2 : ∀ x ∈ rs, P x) : P r := by
  induction rs generalizing acc with
  | nil => simp [orAll] at h; exact h1 r h
  | cons x xs ih =>
    cases acc with
    | none =>
      rw [orAll] at h
      exact ih _ h (by intro a ha; simp at ha; subst ha; exact h2 x (by simp)) (fun y hy => h2 y (by simp [hy]))
    | some a =>
      rw [orAll] at h
      exact ih _ h (by intro b hb; simp at hb; subst hb; exact hP _ _ (h1 a rfl) (h2 x (by simp)))
        (fun y hy => h2 y (by simp [hy]))

theorem minVersion_spec (vs : List Version) :
    (minVersion vs = none ↔ vs = []) ∧
    ∀ v, minVersion vs = some v → v ∈ vs ∧ ∀ u ∈ vs, ¬ Spec.Precedes u v := by
  induction vs with
  | nil => simp [minVersion]
  | cons w ws ih =>
    obtain ⟨i1, i2⟩ := ih
    rw [minVersion]
    cases hm : minVersion ws with
    | none =>
      have := i1.1 hm
      subst this
      simp
      exact precedes_irrefl w
    | some x =>
      obtain ⟨hx, hmin⟩ := i2 x hm
      simp only
      split
      · rename_i hle
        rw [le_iff] at hle
        refine ⟨by simp, ?_⟩
        intro v hv
        simp at hv; subst hv
        refine ⟨by simp, ?_⟩
        intro u hu
        rcases List.mem_cons.1 hu with rfl | hu
        · exact precedes_irrefl u
        · intro hp
          rcases precedes_split _ x _ hp with h | h
          · exact hmin u hu h
          · exact hle h
      · rename_i hle
        rw [le_iff, not_not] at hle
        refine ⟨by simp, ?_⟩
        intro v hv
        simp at hv; subst hv
        refine ⟨by simp [hx], ?_⟩
        intro u hu
        rcases List.mem_cons.1 hu with rfl | hu
        · intro hp; exact precedes_asymm _ _ hp hle
        · exact hmin u hu

theorem lowest_of_lowInc (r : Range) (h1 : SegsOK r) (h2 : LowInc r) :
    (r.lowestVersion = none → ∀ u, r.contains u = false) ∧
    ∀ v, r.lowestVersion = some v → r.contains v = true ∧ ∀ u, r.contains u = true → ¬ Spec.Precedes u v := by
  unfold Range.lowestVersion
  obtain ⟨m1, m2⟩ := minVersion_spec (r.filterMap fun s => lowerCandidate s.1)
  constructor
  · intro hn u
    have := m1.1 hn
    rw [List.filterMap_eq_nil_iff] at this
    cases hr : r with
    | nil => rfl
    | cons s ss =>
      obtain ⟨v, hv⟩ := h2 s (by rw [hr]; simp)
      have := this s (by rw [hr]; simp)
      rw [hv] at this
      simp [lowerCandidate] at this
  · intro v hv
    obtain ⟨hmem, hmin⟩ := m2 v hv
    obtain ⟨s, hs, hsv⟩ := List.mem_filterMap.1 hmem
    obtain ⟨w, hw⟩ := h2 s hs
    rw [hw] at hsv
    simp [lowerCandidate] at hsv; subst hsv
    refine ⟨?_, ?_⟩
    · rw [contains_iff]
      refine ⟨s, hs, ?_, ?_⟩
      · rw [hw]; exact precedes_irrefl w
      · have hval := (h1 s hs).2
        rw [hw] at hval
        cases hu : s.2 with
        | included e => rw [hu] at hval; simp only [validSegment] at hval; rw [le_iff] at hval; exact hval
        | excluded e => rw [hu] at hval; simp only [validSegment] at hval; rw [lt_iff] at hval; exact hval
        | unbounded => trivial
    · intro u hu
      rw [contains_iff] at hu
      obtain ⟨s', hs', hl, -⟩ := hu
      obtain ⟨w', hw'⟩ := h2 s' hs'
      rw [hw'] at hl
      intro hp
      rcases precedes_split _ w' _ hp with h | h
      · exact hl h
      · exact hmin w' (List.mem_filterMap.2 ⟨s', hs', by rw [hw']; rfl⟩) h

theorem lowest_release (r : Range) (h1 : SegsOK r) :
    (r.lowestVersion = none → ∀ u, r.contains u = false) ∧
    ∀ v, r.lowestVersion = some v → ∀ u, r.contains u = true → u.pre = [] → ¬ Spec.Precedes u v := by
  unfold Range.lowestVersion
  obtain ⟨m1, m2⟩ := minVersion_spec (r.filterMap fun s => lowerCandidate s.1)
  constructor
  · intro hn u
    have := m1.1 hn
    rw [List.filterMap_eq_nil_iff] at this
    cases hr : r with
    | nil => rfl
    | cons s ss =>
      have h3 := (h1 s (by rw [hr]; simp)).1
      have := this s (by rw [hr]; simp)
      cases hs : s.1 with
      | included v => rw [hs] at this; simp [lowerCandidate] at this
      | excluded v => exact absurd hs (h3 v)
      | unbounded => rw [hs] at this; simp [lowerCandidate] at this
  · intro v hv u hu hpre hp
    obtain ⟨hmem, hmin⟩ := m2 v hv
    rw [contains_iff] at hu
    obtain ⟨s', hs', hl, -⟩ := hu
    cases hs : s'.1 with
    | included w' =>
      rw [hs] at hl
      rcases precedes_split _ w' _ hp with h | h
      · exact hl h
      · exact hmin w' (List.mem_filterMap.2 ⟨s', hs', by rw [hs]; rfl⟩) h
    | excluded w' => exact (h1 s' hs').1 w' hs
    | unbounded =>
      have hm := hmin .lowest (List.mem_filterMap.2 ⟨s', hs', by rw [hs]; rfl⟩)
      rcases precedes_split _ .lowest _ hp with h | h
      · revert h
        simp [Spec.Precedes, Version.lowest, Spec.PreLt, hpre]
      · exact hm h

theorem comparator_segs {ts : List Token} {rg : Range} {r : List Token}
    (h : comparator ts = some (rg, r)) : SegsOK rg := by
  unfold comparator at h
  split at h
  · simp only [Option.map_eq_some_iff] at h
    obtain ⟨⟨v, r'⟩, -, h⟩ := h
    simp at h; rw [← h.1]; exact (segsOK_singleton v).1
  · simp only [Option.map_eq_some_iff] at h
    obtain ⟨⟨v, r'⟩, -, h⟩ := h
    simp at h; rw [← h.1]; exact (segsOK_singleton v).1
  · simp only [Option.bind_eq_bind, Option.bind_eq_some_iff] at h
    obtain ⟨⟨v, r'⟩, -, u, -, h⟩ := h
    simp at h; rw [← h.1]; exact segsOK_union (segsOK_lower v) (segsOK_higherThan u).1
  · simp only [Option.bind_eq_bind, Option.bind_eq_some_iff] at h
    obtain ⟨⟨v, r'⟩, -, u, -, h⟩ := h
    simp at h; rw [← h.1]; exact (segsOK_higherThan u).1
  · simp only [Option.map_eq_some_iff] at h
    obtain ⟨⟨v, r'⟩, -, h⟩ := h
    simp at h; rw [← h.1]; exact (segsOK_higherThan v).1
  · simp only [Option.map_eq_some_iff] at h
    obtain ⟨⟨v, r'⟩, -, h⟩ := h
    simp at h; rw [← h.1]; exact segsOK_lower v
  · simp only [Option.bind_eq_bind, Option.bind_eq_some_iff] at h
    obtain ⟨⟨v, r'⟩, -, u, -, h⟩ := h
    simp at h; rw [← h.1]; exact segsOK_lower u
  · unfold pessimistic at h
    simp only [Option.bind_eq_bind, Option.bind_eq_some_iff] at h
    obtain ⟨a, -, b, -, c, -, d, -, e, -, h⟩ := h
    split at h <;>
    · simp only [Option.bind_eq_some_iff] at h
      obtain ⟨u, -, h⟩ := h
      simp at h; rw [← h.1]
      exact segsOK_inter (segsOK_higherThan _).1 (segsOK_lower u)
  · simp at h

theorem andsLoop_segs (n : Nat) (acc : Option Range) (ts : List Token) (rg : Range) (r : List Token)
    (hacc : ∀ a, acc = some a → SegsOK a) (h : andsLoop n acc ts = some (rg, r)) : SegsOK rg := by
  induction n generalizing acc ts with
  | zero => simp [andsLoop] at h
  | succ n ih =>
    rw [andsLoop] at h
    split at h
    · simp only [Option.map_eq_some_iff] at h
      obtain ⟨a, ha, h⟩ := h
      simp at h; rw [← h.1]; exact hacc a ha
    · simp only [Option.bind_eq_bind, Option.bind_eq_some_iff] at h
      obtain ⟨⟨c, r'⟩, hc, h⟩ := h
      have hcs := comparator_segs hc
      have hand : SegsOK (andRange acc c) := by
        cases acc with
        | none => exact hcs
        | some a => exact segsOK_inter (hacc a rfl) hcs
      simp only at h
      split at h
      · simp only [Option.bind_eq_some_iff] at h
        obtain ⟨r2, -, h⟩ := h
        exact ih _ _ (by intro a ha; simp at ha; subst ha; exact hand) h
      · simp at h; rw [← h.1]; exact hand

theorem rangeLoop_segs (n : Nat) (acc : Option Range) (ts : List Token) (rg : Range) (r : List Token)
    (hacc : ∀ a, acc = some a → SegsOK a) (h : rangeLoop n acc ts = some (rg, r)) : SegsOK rg := by
  induction n generalizing acc ts with
  | zero => simp [rangeLoop] at h
  | succ n ih =>
    rw [rangeLoop] at h
    simp only [Option.bind_eq_bind, Option.bind_eq_some_iff] at h
    obtain ⟨⟨c, r'⟩, hc, h⟩ := h
    have hcs := andsLoop_segs _ _ _ _ _ (by simp) hc
    have hor : SegsOK (orRange acc c) := by
      cases acc with
      | none => exact hcs
      | some a => exact segsOK_union (hacc a rfl) hcs
    simp only at h
    split at h
    · simp only [Option.bind_eq_some_iff] at h
      obtain ⟨r2, -, h⟩ := h
      exact ih _ _ (by intro a ha; simp at ha; subst ha; exact hor) h
    · simp at h; rw [← h.1]; exact hor

theorem parseRange_segs {s : List Char} {rg : Range} (h : parseRange s = some rg) : SegsOK rg := by
  unfold parseRange at h
  simp only [Option.bind_eq_bind, Option.bind_eq_some_iff] at h
  obtain ⟨ts, -, ⟨r, t⟩, h2, h3⟩ := h
  simp at h3
  obtain ⟨-, rfl⟩ := h3
  exact rangeLoop_segs _ _ _ _ _ (by simp) h2

/-- As `parseRange_text`, with the shape of the segments when every alternative bounds below. -/
theorem parseRange_lowInc (sp w : List Char) (hsp : WS sp) (hne : sp ≠ []) (hw : WS w)
    (alts : List (List (Item w))) (hne' : alts ≠ []) (ha : ∀ a ∈ alts, a ≠ [])
    (hb : ∀ a ∈ alts, ∃ it ∈ a, BoundsBelow it.comp) (rg : Range)
    (h : parseRange (Spec.requirementText sp w (alts.map fun a => a.map (·.comp))) = some rg) : LowInc rg := by
  obtain ⟨rg', rgs, h1, h2, h3⟩ := or_toks alts hne' ha none
    ((joinToks .or (alts.map fun a => joinToks .and (a.map (·.toks)))).length + 1) (by
      have := joinToks_length .or (alts.map fun a => joinToks .and (a.map (·.toks)))
      simpa using this)
  have : parseRange (Spec.requirementText sp w (alts.map fun a => a.map (·.comp))) = some rg' := by
    simp [parseRange, lex_requirement sp w hsp hne hw alts hne' ha, h3]
  rw [this] at h
  simp at h; subst h
  refine orAll_segs LowInc ?_ none rgs rg' h2 (by simp) ?_
  · intro a b ha hb s hs
    rcases List.mem_append.1 hs with h | h
    · exact ha s h
    · exact hb s h
  · clear h2 h3 this hne' ha
    induction h1 with
    | nil => simp
    | @cons a r as rs hab hrest ih =>
      intro x hx
      rcases List.mem_cons.1 hx with rfl | hx
      · obtain ⟨it, hit, hbi⟩ := hb a (by simp)
        refine (andAll_segs none _ _ hab (by simp) ?_).2 (Or.inr ⟨it.range, List.mem_map_of_mem hit, ?_⟩)
        · intro y hy
          obtain ⟨jt, -, rfl⟩ := List.mem_map.1 hy
          exact (comp_segs jt.ok).1
        · exact (comp_segs it.ok).2 hbi
      · exact ih (fun a ha => hb a (by simp [ha])) x hx

end Verif.Version
