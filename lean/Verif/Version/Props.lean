import Verif.Version.RangeLemmas

/-!
# Properties C01-C05: package versions and version requirements
-/
namespace Verif.Version

open Spec

/-! ### C01 -/

/-- C01: the comparison result is exactly semver precedence; `eq` means equal up to build metadata. -/
theorem cmp_spec (a b : Version) :
    (a.cmp b = .lt ↔ Precedes a b) ∧ (a.cmp b = .gt ↔ Precedes b a) ∧ (a.cmp b = .eq ↔ SameRelease a b) :=
  ⟨cmp_lt' a b, cmp_gt' a b, cmp_eq' a b⟩

/-- C01: the comparison is a total preorder whose equivalence is "same up to build metadata". -/
theorem cmp_total_order (a b c : Version) :
    a.cmp a = .eq ∧ b.cmp a = (a.cmp b).swap ∧
    (a.cmp b = .lt → b.cmp c = .lt → a.cmp c = .lt) ∧
    (a.cmp b ≠ .gt → b.cmp c ≠ .gt → a.cmp c ≠ .gt) := by
  refine ⟨(cmp_eq' a a).2 ⟨rfl, rfl, rfl, rfl⟩, (cmp_swap' a b).symm, ?_, ?_⟩
  · rw [cmp_lt', cmp_lt', cmp_lt']; exact precedes_trans a b c
  · simp only [ne_eq, cmp_gt']
    intro h1 h2 h3
    rcases precedes_split _ b _ h3 with h | h
    · exact h2 h
    · exact h1 h

/-- Pre-releases: `1.0.0-alpha < 1.0.0-alpha.1 < 1.0.0-beta < 1.0.0` and numbers sort below words. -/
example : (⟨1, 0, 0, [.alphaNumeric "alpha".toList], none⟩ : Version).cmp
      ⟨1, 0, 0, [.alphaNumeric "alpha".toList, .numeric 1], none⟩ = .lt ∧
    (⟨1, 0, 0, [.alphaNumeric "alpha".toList, .numeric 1], none⟩ : Version).cmp
      ⟨1, 0, 0, [.alphaNumeric "beta".toList], none⟩ = .lt ∧
    (⟨1, 0, 0, [.alphaNumeric "beta".toList], none⟩ : Version).cmp ⟨1, 0, 0, [], none⟩ = .lt ∧
    (⟨1, 0, 0, [.numeric 7], none⟩ : Version).cmp ⟨1, 0, 0, [.alphaNumeric "6a".toList], none⟩ = .lt := by
  decide

/-- The derived `==` does see build metadata, so `cmp = Equal` does not imply `==`
(the `Eq` and `Ord` implementations disagree, against the contract of `Ord`). -/
theorem cmp_eq_is_not_eq : ∃ a b : Version, a.cmp b = .eq ∧ a ≠ b :=
  ⟨⟨1, 0, 0, [], none⟩, ⟨1, 0, 0, [], some ['a']⟩, by decide, by decide⟩

/-! ### C02 -/

/-- C02: whatever text was parsed, printing the version and parsing that gives the version back. -/
theorem parse_print_roundtrip (s : List Char) (v : Version) (h : parse s = some v) :
    parse v.show = some v := by
  obtain ⟨ts, h⟩ := parse_sound h
  exact parse_show_of_toks h

example : parse " 1.20.3-rc-1.0.x7+007..b ".toList = none ∧
    parse " 1.20.3-rc-1.0.x7+007..b".toList =
      some ⟨1, 20, 3, [.alphaNumeric "rc-1".toList, .numeric 0, .alphaNumeric "x7".toList],
        some "007..b".toList⟩ ∧
    (⟨1, 20, 3, [.alphaNumeric "rc-1".toList, .numeric 0, .alphaNumeric "x7".toList],
        some "007..b".toList⟩ : Version).show = "1.20.3-rc-1.0.x7+007..b".toList := by decide +kernel

/-! ### C03 -/

/-- C03 (exact domain): a version reads back unchanged exactly when it is `Readable`, which excludes
some versions of the semver grammar (see the witnesses below). -/
theorem reads_back_iff (v : Version) : parse v.show = some v ↔ Readable v := by
  rw [← versionToks_iff]
  exact ⟨fun h => parse_sound h, fun ⟨ts, h⟩ => parse_show_of_toks h⟩

/-- Whatever the parser accepts denotes a readable version. -/
theorem parse_readable (s : List Char) (v : Version) (h : parse s = some v) : Readable v :=
  (versionToks_iff v).1 (parse_sound h)

/-- C03 restricted: semver versions whose alphanumeric pre-release identifiers consist of non-empty
hyphen-separated words that do not start with `or` / `and` and are not zero-padded numbers are read back.
Missing for the full property: the identifiers excluded here (see `semver_version_rejected`). -/
theorem semver_reads_back_partial (v : Version) (h : SemverVersion v)
    (hp : ∀ s, Identifier.alphaNumeric s ∈ v.pre → ∃ words, words ≠ [] ∧ s = join '-' words ∧
      ∀ w ∈ words, w ≠ [] ∧ ¬ ['o', 'r'] <+: w ∧ ¬ ['a', 'n', 'd'] <+: w ∧ ¬ ZeroPadded w ∧ '-' ∉ w) :
    parse v.show = some v := by
  rw [reads_back_iff]
  obtain ⟨h1, h2, h3, h4, h5⟩ := h
  refine ⟨h1, h2, h3, ?_, by rw [h5]; trivial⟩
  intro i hi
  have hs := h4 i hi
  cases i with
  | numeric n => exact hs
  | alphaNumeric s =>
    obtain ⟨words, w1, rfl, w2⟩ := hp s hi
    obtain ⟨s1, s2, c, hc, hcd⟩ := hs
    refine ⟨words, w1, rfl, ?_, ?_⟩
    · intro hn
      have := hn.2.1 c hc
      rw [hcd] at this; simp at this
    · intro w hw
      obtain ⟨a, b, c, d, e⟩ := w2 w hw
      refine ⟨a, ⟨?_, b, c⟩, d⟩
      intro ch hch
      have hmem : ∀ (ws : List (List Char)), w ∈ ws → ch ∈ join '-' ws := by
        intro ws hws
        induction ws with
        | nil => simp at hws
        | cons x xs ih =>
          cases xs with
          | nil => simp at hws; subst hws; exact hch
          | cons y ys =>
            rw [join]
            · rcases List.mem_cons.1 hws with h | h
              · subst h; simp [hch]
              · have := ih h; simp [this]
            · simp
      rcases s2 ch (hmem words hw) with h | h
      · exact h
      · subst h; exact absurd hch e

/-- C03 is false of the code: pre-releases such as `1.0.0-order` (starts with the keyword `or`),
`1.0.0-android` and `1.0.0-a--b` are legal semver but rejected. -/
theorem semver_version_rejected : ∃ v w u : Version, SemverVersion v ∧ SemverVersion w ∧ SemverVersion u ∧
    v.show = "1.0.0-order".toList ∧ parse v.show = none ∧
    w.show = "1.0.0-android".toList ∧ parse w.show = none ∧
    u.show = "1.0.0-a--b".toList ∧ parse u.show = none := by
  have key : ∀ s : List Char, s ≠ [] → (∀ c ∈ s, Alnum c ∨ c = '-') →
      (∃ c ∈ s, Verif.Decimal.isDigit c = false) →
      SemverVersion ⟨1, 0, 0, [.alphaNumeric s], none⟩ := by
    intro s h1 h2 h3
    refine ⟨by simp [maxU32], by simp [maxU32], by simp [maxU32], ?_, rfl⟩
    intro i hi
    simp only [List.mem_singleton] at hi; subst hi
    exact ⟨h1, h2, h3⟩
  exact ⟨⟨1, 0, 0, [.alphaNumeric "order".toList], none⟩, ⟨1, 0, 0, [.alphaNumeric "android".toList], none⟩,
    ⟨1, 0, 0, [.alphaNumeric "a--b".toList], none⟩,
    key _ (by decide) (by unfold Alnum; decide) (by decide),
    key _ (by decide) (by unfold Alnum; decide) (by decide),
    key _ (by decide) (by unfold Alnum; decide) (by decide),
    by decide +kernel, by decide +kernel, by decide +kernel, by decide +kernel, by decide +kernel,
    by decide +kernel⟩

/-- The hypotheses of `semver_reads_back_partial` are met by `1.0.0-rc-1.2`. -/
example : parse "1.0.0-rc-1.2".toList =
    some ⟨1, 0, 0, [.alphaNumeric "rc-1".toList, .numeric 2], none⟩ := by decide +kernel

example : Readable ⟨1, 0, 0, [.alphaNumeric "rc-1".toList, .numeric 2], some "007".toList⟩ :=
  parse_readable "1.0.0-rc-1.2+007".toList _ (by decide +kernel)

/-! ### C04 -/

/-- White space as the reader understands it. -/
def White (s : List Char) : Prop := ∀ c ∈ s, c = ' ' ∨ c = '\t' ∨ c = '\n' ∨ c = '\r'

theorem white_ws {s : List Char} (h : White s) : WS s := by
  intro c hc
  rcases h c hc with rfl | rfl | rfl | rfl <;> rfl

/-- The comparators for which the code is exact on `v`: always, except that `!=`, `>` and `<=` are
only right when neither the version nor the comparator's version is a pre-release. -/
def PreFree (v : Version) : Comparator → Prop
  | .ne w | .gt w | .le w => v.pre = [] ∧ w.pre = []
  | _ => True

/-- C04: every requirement text (with any spacing) is accepted, and a version is in the resulting
range iff some `or` alternative has all its comparators satisfied -- provided no pre-release meets a `!=`,
`>` or `<=` comparator. Missing for the full property: that side condition (see
`gt_excludes_release`), and requirements mentioning build metadata. -/
theorem requirement_semantics_partial (req : List (List Comparator)) (hne : req ≠ [])
    (ha : ∀ alt ∈ req, alt ≠ []) (hr : ∀ alt ∈ req, ∀ c ∈ alt, ReadableComparator c)
    (sp w : List Char) (hsp : White sp) (hsp' : sp ≠ []) (hw : White w) :
    ∃ range, parseRange (requirementText sp w req) = some range ∧
      ∀ v, (∀ alt ∈ req, ∀ c ∈ alt, PreFree v c) →
        (range.contains v = true ↔ SatisfiesAny v req) := by
  obtain ⟨items, hi⟩ : ∃ items : List (List (Item w)), items.map (fun a => a.map (·.comp)) = req := by
    clear hne ha
    induction req with
    | nil => exact ⟨[], rfl⟩
    | cons alt alts ih =>
      obtain ⟨is, his⟩ := ih (fun a h => hr a (by simp [h]))
      obtain ⟨js, hjs⟩ : ∃ js : List (Item w), js.map (·.comp) = alt := by
        have halt := hr alt (by simp)
        clear hr ih his
        induction alt with
        | nil => exact ⟨[], rfl⟩
        | cons c cs ih2 =>
          obtain ⟨ks, hks⟩ := ih2 (fun c h => halt c (by simp [h]))
          obtain ⟨ts, rg, hc⟩ := compToks_exists w c (halt c (by simp))
          exact ⟨⟨c, ts, rg, hc⟩ :: ks, by simp [hks]⟩
      exact ⟨js :: is, by simp [his, hjs]⟩
  subst hi
  obtain ⟨rg, h1, h2⟩ := parseRange_text sp w (white_ws hsp) hsp' (white_ws hw) items (by simpa using hne)
    (by
      intro a ha' he
      subst he
      exact ha [] (List.mem_map.2 ⟨[], ha', rfl⟩) rfl)
  refine ⟨rg, h1, ?_⟩
  intro v hv
  rw [h2 v]
  unfold SatisfiesAny
  simp only [List.mem_map, exists_exists_and_eq_and]
  apply exists_congr
  intro a
  apply and_congr_right
  intro haI
  constructor
  · rintro h c ⟨it, hit, rfl⟩
    refine (comp_sem it.ok v ?_).1 (h it hit)
    have := hv _ (List.mem_map_of_mem haI) it.comp (List.mem_map_of_mem hit)
    revert this
    cases it.comp <;> exact id
  · intro h it hit
    refine (comp_sem it.ok v ?_).2 (h it.comp ⟨it, hit, rfl⟩)
    have := hv _ (List.mem_map_of_mem haI) it.comp (List.mem_map_of_mem hit)
    revert this
    cases it.comp <;> exact id

/-- `~> 1.2 or >= 3.0.0 and != 3.1.0` -/
example : requirementText [' '] [' '] [[.approx2 1 2 []], [.ge ⟨3, 0, 0, [], none⟩, .ne ⟨3, 1, 0, [], none⟩]] =
      "~> 1.2 or >= 3.0.0 and != 3.1.0".toList ∧
    (∀ alt ∈ [[Comparator.approx2 1 2 []], [.ge ⟨3, 0, 0, [], none⟩, .ne ⟨3, 1, 0, [], none⟩]], ∀ c ∈ alt,
      ReadableComparator c) ∧
    (parseRange "~> 1.2 or >= 3.0.0 and != 3.1.0".toList).map (fun r =>
      (r.contains ⟨1, 9, 0, [], none⟩, r.contains ⟨2, 0, 0, [], none⟩, r.contains ⟨3, 1, 0, [], none⟩,
       r.contains ⟨3, 1, 1, [], none⟩)) = some (true, false, false, true) := by
  refine ⟨by decide +kernel, ?_, by decide +kernel⟩
  intro alt halt c hc
  simp only [List.mem_cons, List.not_mem_nil, or_false] at halt
  rcases halt with rfl | rfl
  · simp only [List.mem_cons, List.not_mem_nil, or_false] at hc
    subst hc
    exact ⟨by decide, by decide, by simp⟩
  · simp only [List.mem_cons, List.not_mem_nil, or_false] at hc
    rcases hc with rfl | rfl
    · exact ⟨⟨by decide, by decide, by decide, by simp, trivial⟩, rfl⟩
    · exact ⟨⟨by decide, by decide, by decide, by simp, trivial⟩, rfl, by decide⟩

/-- C04 is false of the code when pre-releases are involved: `> 1.0.0-rc1` rejects `1.0.0` (and
`> 1.0.0` rejects `1.0.1-rc1`), `<= 1.0.0-rc1` accepts `1.0.0`, `!= 1.0.0-rc1` rejects `1.0.0`. -/
theorem gt_excludes_release :
    ((parseRange "> 1.0.0-rc1".toList).map (·.contains ⟨1, 0, 0, [], none⟩) = some false ∧
      Precedes ⟨1, 0, 0, [.alphaNumeric "rc1".toList], none⟩ ⟨1, 0, 0, [], none⟩) ∧
    (parseRange "> 1.0.0".toList).map (·.contains ⟨1, 0, 1, [.alphaNumeric "rc1".toList], none⟩) = some false ∧
    (parseRange "<= 1.0.0-rc1".toList).map (·.contains ⟨1, 0, 0, [], none⟩) = some true ∧
    (parseRange "!= 1.0.0-rc1".toList).map (·.contains ⟨1, 0, 0, [], none⟩) = some false := by
  refine ⟨⟨by decide +kernel, ?_⟩, by decide +kernel, by decide +kernel, by decide +kernel⟩
  simp [Precedes, PreLt]

/-- A requirement in which build metadata is followed by anything is rejected. -/
theorem build_in_requirement_rejected : parseRange "== 1.0.0+a or == 2.0.0".toList = none := by decide +kernel

/-! ### C05 -/

/-- A comparator that puts a lower limit on versions. -/
def LimitsBelow : Comparator → Prop
  | .bare _ | .eq _ | .gt _ | .ge _ | .approx2 _ _ _ | .approx3 _ => True
  | .ne _ | .lt _ | .le _ => False

/-- C05: for every requirement whose alternatives each contain a comparator with a lower limit, the
reported lowest version is in the range and no version in the range is lower; none is reported only when
the range is empty. -/
theorem lowest_version_bounded_partial (req : List (List Comparator)) (hne : req ≠ [])
    (hl : ∀ alt ∈ req, ∃ c ∈ alt, LimitsBelow c)
    (hr : ∀ alt ∈ req, ∀ c ∈ alt, ReadableComparator c)
    (sp w : List Char) (hsp : White sp) (hsp' : sp ≠ []) (hw : White w) :
    ∃ range, parseRange (requirementText sp w req) = some range ∧
      (range.lowestVersion = none → ∀ u, range.contains u = false) ∧
      ∀ v, range.lowestVersion = some v →
        range.contains v = true ∧ ∀ u, range.contains u = true → ¬ Precedes u v := by
  obtain ⟨items, hi⟩ : ∃ items : List (List (Item w)), items.map (fun a => a.map (·.comp)) = req := by
    clear hne hl
    induction req with
    | nil => exact ⟨[], rfl⟩
    | cons alt alts ih =>
      obtain ⟨is, his⟩ := ih (fun a h => hr a (by simp [h]))
      obtain ⟨js, hjs⟩ : ∃ js : List (Item w), js.map (·.comp) = alt := by
        have halt := hr alt (by simp)
        clear hr ih his
        induction alt with
        | nil => exact ⟨[], rfl⟩
        | cons c cs ih2 =>
          obtain ⟨ks, hks⟩ := ih2 (fun c h => halt c (by simp [h]))
          obtain ⟨ts, rg, hc⟩ := compToks_exists w c (halt c (by simp))
          exact ⟨⟨c, ts, rg, hc⟩ :: ks, by simp [hks]⟩
      exact ⟨js :: is, by simp [his, hjs]⟩
  subst hi
  have hb : ∀ a ∈ items, ∃ it ∈ a, BoundsBelow it.comp := by
    intro a ha
    obtain ⟨c, hc, hcl⟩ := hl _ (List.mem_map_of_mem ha)
    obtain ⟨it, hit, rfl⟩ := List.mem_map.1 hc
    refine ⟨it, hit, ?_⟩
    revert hcl
    cases it.comp <;> exact id
  have hnil : ∀ a ∈ items, a ≠ [] := by
    rintro a ha rfl
    obtain ⟨it, hit, -⟩ := hb _ ha
    simp at hit
  obtain ⟨rg, h1, -⟩ := parseRange_text sp w (white_ws hsp) hsp' (white_ws hw) items (by simpa using hne) hnil
  have hinc := parseRange_lowInc sp w (white_ws hsp) hsp' (white_ws hw) items (by simpa using hne) hnil hb rg h1
  exact ⟨rg, h1, lowest_of_lowInc rg (parseRange_segs h1) hinc⟩

example : (parseRange "~> 1.2 or >= 3.0.0 and < 4.0.0-rc".toList).bind (·.lowestVersion) =
    some ⟨1, 2, 0, [], none⟩ := by decide +kernel

/-- C05 for every parsed range, in terms of releases: no release in the range is lower than the
reported version, and none is reported only for an empty range. Missing for the full property: for ranges with
no lower limit the reported version may be outside the range (next theorem). -/
theorem lowest_version_partial (s : List Char) (range : Range) (h : parseRange s = some range) :
    (range.lowestVersion = none → ∀ u, range.contains u = false) ∧
    ∀ v, range.lowestVersion = some v → ∀ u, range.contains u = true → u.pre = [] → ¬ Precedes u v :=
  lowest_release range (parseRange_segs h)

/-- C05 fails without a lower limit: for `< 0.0.0` the reported lowest version is `0.0.0`, which is
not in the range. -/
theorem lowest_version_not_member : ∃ range, parseRange "< 0.0.0".toList = some range ∧
    range.lowestVersion = some ⟨0, 0, 0, [], none⟩ ∧ range.contains ⟨0, 0, 0, [], none⟩ = false :=
  ⟨[(.unbounded, .excluded ⟨0, 0, 0, [], none⟩)], by decide +kernel, by decide +kernel, by decide +kernel⟩

end Verif.Version
