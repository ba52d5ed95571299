import Verif.Version.Lex

namespace Verif.Version

open Verif.Decimal

/-! ### Identifiers -/

/-- The tokens of a pre-release identifier. -/
inductive IdToks : Identifier → List Token → Prop
  | num (n : Nat) (h : n ≤ u32Max) : IdToks (.numeric n) [.numeric n]
  | word (s : List Char) (h : SegOK s) (hn : parseU32 s = none) : IdToks (.alphaNumeric s) [.alphaNumeric s]
  | cons (s : List Char) (h : SegOK s) (hz : classify s ≠ .leadingZero s) (i : Identifier) (ts : List Token)
      (hi : IdToks i ts) : IdToks (.alphaNumeric (s ++ '-' :: i.show)) (classify s :: .hyphen :: ts)

theorem noAlnum_hyphen (r : List Char) : NoAlnum ('-' :: r) := by
  intro c h; simp at h; subst h; decide

theorem noAlnum_dot (r : List Char) : NoAlnum ('.' :: r) := by
  intro c h; simp at h; subst h; decide

theorem noAlnum_plus (r : List Char) : NoAlnum ('+' :: r) := by
  intro c h; simp at h; subst h; decide

theorem noAlnum_nil : NoAlnum [] := by intro c h; simp at h

theorem map_map_cons (o : Option (List Token)) (a b : List Token) :
    (o.map (a ++ ·)).map (b ++ ·) = o.map ((b ++ a) ++ ·) := by
  cases o <;> simp

theorem classify_word {s : List Char} (hn : parseU32 s = none) : classify s = .alphaNumeric s := by
  rcases classify_cases s with ⟨n, h1, h2, h3⟩ | ⟨-, ⟨n, h⟩, -⟩ | ⟨h, -⟩
  · exfalso
    have : parseU32 s = some n := by
      subst h2
      have h1 : (showNat n).isEmpty = false := by simpa using showNat_ne_nil n
      have h2 : (showNat n).all isDigit = true := by
        rw [List.all_eq_true]; exact showNat_digits n
      simp [parseU32, h1, h2, readNat_showNat, h3]
    rw [hn] at this; simp at this
  · rw [hn] at h; simp at h
  · exact h

theorem lex_id {i : Identifier} {ts : List Token} (h : IdToks i ts) (rest : List Char) (hr : NoAlnum rest) :
    lex (i.show ++ rest) = (lex rest).map (ts ++ ·) := by
  induction h with
  | num n hn => simpa [Identifier.show] using lex_showNat n hn rest hr
  | word s hs hn =>
    have := lex_seg s rest hs hr
    rw [classify_word hn] at this
    simpa [Identifier.show] using this
  | cons s hs hz i ts hi ih =>
    have e : (Identifier.alphaNumeric (s ++ '-' :: i.show)).show ++ rest = s ++ '-' :: (i.show ++ rest) := by
      simp [Identifier.show]
    rw [e, lex_seg s _ hs (noAlnum_hyphen _), lex_hyphen, ih]
    cases lex rest <;> simp

theorem identifier_toks {i : Identifier} {ts : List Token} (h : IdToks i ts) (r : List Token)
    (hr : r.head? ≠ some .hyphen) : identifier (ts ++ r) = some (i, r) := by
  induction h with
  | num n hn =>
    cases r with
    | nil => simp [identifier]
    | cons t r => cases t <;> simp_all [identifier]
  | word s hs hn =>
    cases r with
    | nil => simp [identifier]
    | cons t r => cases t <;> simp_all [identifier]
  | cons s hs hz i ts hi ih =>
    rcases classify_cases s with ⟨n, h1, h2, h3⟩ | ⟨h, -⟩ | ⟨h, -⟩
    · rw [h1]
      simp [identifier, ih, Identifier.concat, h2]
    · exact absurd h hz
    · rw [h]
      simp [identifier, ih, Identifier.concat]

theorem identifier_sound (ts : List Token) (hw : ∀ t ∈ ts, t.isWord = true → WordOK t) (i : Identifier)
    (r : List Token) (h : identifier ts = some (i, r)) :
    ∃ its, IdToks i its ∧ ts = its ++ r := by
  induction ts using identifier.induct generalizing i r with
  | case1 s ts ih =>
    simp only [identifier] at h
    cases hi : identifier ts with
    | none => simp [hi] at h
    | some p =>
      obtain ⟨j, r'⟩ := p
      simp [hi, Identifier.concat] at h
      obtain ⟨rfl, rfl⟩ := h
      obtain ⟨its, h1, rfl⟩ := ih (fun t ht => hw t (by simp [ht])) j r' hi
      have hs := hw (.alphaNumeric s) (by simp) rfl
      have := IdToks.cons s hs.seg (by rw [show classify s = .alphaNumeric s from hs.cls]; simp) j its h1
      rw [show classify s = .alphaNumeric s from hs.cls] at this
      exact ⟨_, this, by simp⟩
  | case2 n ts ih =>
    simp only [identifier] at h
    cases hi : identifier ts with
    | none => simp [hi] at h
    | some p =>
      obtain ⟨j, r'⟩ := p
      simp [hi, Identifier.concat] at h
      obtain ⟨rfl, rfl⟩ := h
      obtain ⟨its, h1, rfl⟩ := ih (fun t ht => hw t (by simp [ht])) j r' hi
      have hs := hw (.numeric n) (by simp) rfl
      have := IdToks.cons (showNat n) hs.seg (by rw [show classify (showNat n) = .numeric n from hs.cls]; simp) j its h1
      rw [show classify (showNat n) = .numeric n from hs.cls] at this
      exact ⟨_, this, by simp⟩
  | case3 s ts hne =>
    have hs := hw (.alphaNumeric s) (by simp) rfl
    have he : identifier (.alphaNumeric s :: ts) = some (.alphaNumeric s, ts) := by
      rw [identifier]; exact hne
    rw [he] at h
    simp at h
    obtain ⟨rfl, rfl⟩ := h
    refine ⟨_, IdToks.word s hs.seg ?_, rfl⟩
    rcases classify_cases s with ⟨n, h1, h2, h3⟩ | ⟨h, -⟩ | ⟨_, h⟩
    · have := hs.cls; simp only [Token.text] at this; rw [this] at h1; simp at h1
    · have := hs.cls; simp only [Token.text] at this; rw [this] at h; simp at h
    · exact h
  | case4 n ts hne =>
    have hs := hw (.numeric n) (by simp) rfl
    have he : identifier (.numeric n :: ts) = some (.numeric n, ts) := by
      rw [identifier]; exact hne
    rw [he] at h
    simp at h
    obtain ⟨rfl, rfl⟩ := h
    refine ⟨_, IdToks.num n ?_, rfl⟩
    rcases classify_cases (showNat n) with ⟨m, h1, h2, h3⟩ | ⟨h, -⟩ | ⟨h, -⟩
    · rw [← showNat_inj h2]; exact h3
    · have := hs.cls; simp only [Token.text] at this; rw [this] at h; simp at h
    · have := hs.cls; simp only [Token.text] at this; rw [this] at h; simp at h
  | case5 ts h1 h2 h3 h4 =>
    exfalso
    unfold identifier at h
    split at h
    all_goals first | (exact h1 _ _ rfl) | (exact h2 _ _ rfl) | (exact h3 _ _ rfl) | (exact h4 _ _ rfl) | simp at h

/-- The tokens of a dot-separated list of identifiers. -/
inductive PartsToks : List Identifier → List Token → Prop
  | one (i : Identifier) (ts : List Token) (h : IdToks i ts) : PartsToks [i] ts
  | cons (i : Identifier) (ts : List Token) (h : IdToks i ts) (is : List Identifier) (ts' : List Token)
      (h' : PartsToks is ts') : PartsToks (i :: is) (ts ++ .dot :: ts')

theorem partsToks_ne {is : List Identifier} {ts : List Token} (h : PartsToks is ts) : is ≠ [] := by
  cases h <;> simp

theorem lex_parts {is : List Identifier} {ts : List Token} (h : PartsToks is ts) (rest : List Char)
    (hr : NoAlnum rest) : lex (showPre is ++ rest) = (lex rest).map (ts ++ ·) := by
  induction h with
  | one i ts h => simpa [showPre] using lex_id h rest hr
  | cons i ts h is ts' h' ih =>
    cases is with
    | nil => exact absurd rfl (partsToks_ne h')
    | cons j js =>
      rw [show showPre (i :: j :: js) = i.show ++ '.' :: showPre (j :: js) from rfl, List.append_assoc,
        List.cons_append, lex_id h _ (noAlnum_dot _), lex_dot, ih]
      cases lex rest <;> simp

theorem idToks_ne {i : Identifier} {ts : List Token} (h : IdToks i ts) : ts ≠ [] := by
  cases h <;> simp

theorem parts_toks {is : List Identifier} {ts : List Token} (h : PartsToks is ts) (r : List Token)
    (h1 : r.head? ≠ some .hyphen) (h2 : r.head? ≠ some .dot) (n : Nat) (hn : (ts ++ r).length ≤ n) :
    parts n (ts ++ r) = some (is, r) := by
  induction h generalizing n with
  | one i ts h =>
    cases n with
    | zero =>
      have := idToks_ne h
      simp at hn
      exact absurd hn.1 this
    | succ n =>
      rw [parts, identifier_toks h r h1]
      cases r with
      | nil => rfl
      | cons t r => cases t <;> simp_all
  | cons i ts h is ts' h' ih =>
    cases n with
    | zero => simp at hn
    | succ n =>
      rw [List.append_assoc, parts, identifier_toks h (.dot :: ts' ++ r) (by simp)]
      simp only [List.cons_append]
      rw [ih n (by simp at hn ⊢; omega)]
      rfl

theorem parts_sound (n : Nat) (ts : List Token) (hw : ∀ t ∈ ts, t.isWord = true → WordOK t)
    (is : List Identifier) (r : List Token) (h : parts n ts = some (is, r)) :
    ∃ its, PartsToks is its ∧ ts = its ++ r := by
  induction n generalizing ts is r with
  | zero => simp [parts] at h
  | succ n ih =>
    rw [parts] at h
    split at h
    · simp at h
    · rename_i i r' hi
      obtain ⟨its, h1, rfl⟩ := identifier_sound ts hw i _ hi
      cases hp : parts n r' with
      | none => simp [hp] at h
      | some p =>
        obtain ⟨js, r2⟩ := p
        simp [hp] at h
        obtain ⟨rfl, rfl⟩ := h
        obtain ⟨its', h2, rfl⟩ := ih r' (fun t ht => hw t (by simp [ht])) js r2 hp
        exact ⟨_, PartsToks.cons i its h1 js its' h2, by simp⟩
    · rename_i i r' _ hi
      simp at h
      obtain ⟨rfl, rfl⟩ := h
      obtain ⟨its, h1, rfl⟩ := identifier_sound ts hw i _ hi
      exact ⟨its, PartsToks.one i its h1, rfl⟩

/-! ### Build metadata -/

/-- The tokens of build metadata: words (possibly empty) separated by dots. -/
inductive BuildToks : List Char → List Token → Prop
  | nil : BuildToks [] []
  | word (s : List Char) (h : SegOK s) : BuildToks s [classify s]
  | dot (b : List Char) (ts : List Token) (h : BuildToks b ts) : BuildToks ('.' :: b) (.dot :: ts)
  | wordDot (s : List Char) (h : SegOK s) (b : List Char) (ts : List Token) (h' : BuildToks b ts) :
      BuildToks (s ++ '.' :: b) (classify s :: .dot :: ts)

theorem lex_build {b : List Char} {ts : List Token} (h : BuildToks b ts) : lex b = some ts := by
  induction h with
  | nil => rfl
  | word s h => have := lex_seg s [] h noAlnum_nil; simpa [lex_nil] using this
  | dot b ts h ih => rw [lex_dot, ih]; rfl
  | wordDot s h b ts h' ih => rw [lex_seg s _ h (noAlnum_dot _), lex_dot, ih]; rfl

theorem buildLoop_classify (s : List Char) (ts : List Token) :
    buildLoop (classify s :: ts) = (buildLoop ts).map (s ++ ·) := by
  rcases classify_cases s with ⟨n, h1, h2, h3⟩ | ⟨h, -⟩ | ⟨h, -⟩
  · rw [h1, buildLoop, h2]
  · rw [h, buildLoop]
  · rw [h, buildLoop]

theorem buildLoop_toks {b : List Char} {ts : List Token} (h : BuildToks b ts) : buildLoop ts = some b := by
  induction h with
  | nil => rfl
  | word s h => rw [buildLoop_classify]; simp [buildLoop]
  | dot b ts h ih => simp [buildLoop, ih]
  | wordDot s h b ts h' ih => rw [buildLoop_classify]; simp [buildLoop, ih]

theorem buildLoop_word (t : Token) (ht : t.isWord = true) (ts : List Token) :
    buildLoop (t :: ts) = (buildLoop ts).map (t.text ++ ·) := by
  cases t <;> simp_all [Token.isWord, buildLoop, Token.text]

theorem buildLoop_sound (ts : List Token) (hw : ∀ t ∈ ts, t.isWord = true → WordOK t) (ha : NoAdj ts)
    (b : List Char) (h : buildLoop ts = some b) : BuildToks b ts := by
  induction ts using List.twoStepInduction generalizing b with
  | nil => simp [buildLoop] at h; subst h; exact .nil
  | singleton t =>
    by_cases ht : t.isWord = true
    · rw [buildLoop_word t ht] at h
      simp [buildLoop] at h
      subst h
      have := hw t (by simp) ht
      have h2 := BuildToks.word t.text this.seg
      rwa [this.cls] at h2
    · cases t <;> simp_all [Token.isWord, buildLoop]
      subst h
      exact .dot _ _ .nil
  | cons_cons t u ts ih1 ih2 =>
    by_cases ht : t.isWord = true
    · rw [buildLoop_word t ht] at h
      have hu : u.isWord = false := by
        have := ha.1
        simp [ht] at this; exact this
      have ht' := hw t (by simp) ht
      have hd : u = .dot := by
        cases u <;> simp_all [Token.isWord, buildLoop]
      subst hd
      rw [buildLoop] at h
      simp only [Option.map_map, Option.map_eq_some_iff] at h
      obtain ⟨b', hb', rfl⟩ := h
      have hna : NoAdj ts := by
        have := ha.2
        cases ts with
        | nil => trivial
        | cons x xs => exact this.2
      have h2 := BuildToks.wordDot t.text ht'.seg b' ts (ih1 (fun t ht => hw t (by simp [ht])) hna b' hb')
      rwa [ht'.cls] at h2
    · have hd : t = .dot := by
        cases t <;> simp_all [Token.isWord, buildLoop]
      subst hd
      rw [buildLoop] at h
      cases hb : buildLoop (u :: ts) with
      | none => simp [hb] at h
      | some b' =>
        simp [hb] at h
        subst h
        exact .dot _ _ (ih2 u (fun t ht => hw t (by simp at ht ⊢; tauto)) ha.2 b' hb)

/-! ### Versions -/

/-- The tokens of an optional pre-release part. -/
inductive PreToks : List Identifier → List Token → Prop
  | none : PreToks [] []
  | some (is : List Identifier) (ts : List Token) (h : PartsToks is ts) : PreToks is (.hyphen :: ts)

/-- The tokens of an optional build part. -/
inductive PlusToks : Option (List Char) → List Token → Prop
  | none : PlusToks none []
  | some (b : List Char) (hb : b ≠ []) (ts : List Token) (h : BuildToks b ts) :
      PlusToks (some b) (.plus :: ts)

structure VersionToks (v : Version) (ts : List Token) : Prop where
  major : v.major ≤ u32Max
  minor : v.minor ≤ u32Max
  patch : v.patch ≤ u32Max
  toks : ∃ ps bs, PreToks v.pre ps ∧ PlusToks v.build bs ∧
    ts = .numeric v.major :: .dot :: .numeric v.minor :: .dot :: .numeric v.patch :: (ps ++ bs)

/-- The text of the optional pre-release part. -/
def showPrePart (p : List Identifier) : List Char := if p.isEmpty then [] else '-' :: showPre p

theorem lex_prePart {p : List Identifier} {ps : List Token} (h : PreToks p ps) (rest : List Char)
    (hr : NoAlnum rest) : lex (showPrePart p ++ rest) = (lex rest).map (ps ++ ·) := by
  cases h with
  | none => simp [showPrePart]
  | some is ts h =>
    have := partsToks_ne h
    rw [showPrePart, if_neg (by simpa using this), List.cons_append, lex_hyphen, lex_parts h rest hr]
    cases lex rest <;> simp

theorem noAlnum_prePart (p : List Identifier) (rest : List Char) (hr : NoAlnum rest) :
    NoAlnum (showPrePart p ++ rest) := by
  unfold showPrePart; split
  · exact hr
  · exact noAlnum_hyphen _

theorem pre_toks {p : List Identifier} {ps : List Token} (h : PreToks p ps) (r : List Token)
    (h1 : r.head? ≠ some .hyphen) (h2 : r.head? ≠ some .dot) : pre (ps ++ r) = some (p, r) := by
  cases h with
  | none => cases r with
    | nil => rfl
    | cons t r => cases t <;> simp_all [pre]
  | some is ts h =>
    rw [List.cons_append, pre]
    exact parts_toks h r h1 h2 _ (Nat.le_refl _)

theorem lex_version {v : Version} {ts : List Token} (h : VersionToks v ts) : lex v.show = some ts := by
  obtain ⟨hM, hm, hp, ps, bs, h1, h2, rfl⟩ := h
  have hb : lex (showBuild v.build) = some bs ∧ NoAlnum (showBuild v.build) := by
    cases hbb : v.build with
    | none => rw [hbb] at h2; cases h2; exact ⟨rfl, noAlnum_nil⟩
    | some b =>
      rw [hbb] at h2
      cases h2 with
      | some _ hb ts h => exact ⟨by rw [showBuild, lex_plus, lex_build h]; rfl, noAlnum_plus _⟩
  unfold Version.show
  rw [lex_showNat _ hM _ (noAlnum_dot _), lex_dot, lex_showNat _ hm _ (noAlnum_dot _), lex_dot,
    lex_showNat _ hp _ (by have := noAlnum_prePart v.pre _ hb.2; unfold showPrePart at this; exact this)]
  have := lex_prePart h1 _ hb.2
  unfold showPrePart at this
  rw [this, hb.1]
  rfl

theorem plusBuild_toks {b : Option (List Char)} {bs : List Token} (h : PlusToks b bs) :
    plusBuild bs = some (b, []) := by
  cases h with
  | none => rfl
  | some b hb ts h =>
    simp [plusBuild, buildLoop_toks h, hb]

theorem plusToks_head {b : Option (List Char)} {bs : List Token} (h : PlusToks b bs) :
    bs.head? ≠ some .hyphen ∧ bs.head? ≠ some .dot := by
  cases h <;> simp

theorem version_toks {v : Version} {ts : List Token} (h : VersionToks v ts) : version ts = some (v, []) := by
  obtain ⟨hM, hm, hp, ps, bs, h1, h2, rfl⟩ := h
  have hh := plusToks_head h2
  simp [version, skipWs, numeric, dotNumeric, pre_toks h1 bs hh.1 hh.2, plusBuild_toks h2]

theorem parse_show_of_toks {v : Version} {ts : List Token} (h : VersionToks v ts) : parse v.show = some v := by
  simp [parse, lex_version h, version_toks h]

theorem noAdj_tail {t : Token} {ts : List Token} (h : NoAdj (t :: ts)) : NoAdj ts := by
  cases ts with
  | nil => trivial
  | cons u ts => exact h.2

theorem noAdj_append {ts us : List Token} (h : NoAdj (ts ++ us)) : NoAdj us := by
  induction ts with
  | nil => exact h
  | cons t ts ih => exact ih (noAdj_tail h)

theorem numeric_le {ts : List Token} (hw : ∀ t ∈ ts, t.isWord = true → WordOK t) {n : Nat}
    (h : Token.numeric n ∈ ts) : n ≤ u32Max := by
  have hs := hw _ h rfl
  rcases classify_cases (showNat n) with ⟨m, h1, h2, h3⟩ | ⟨h, -⟩ | ⟨h, -⟩
  · rw [← showNat_inj h2]; exact h3
  · have := hs.cls; simp only [Token.text] at this; rw [this] at h; simp at h
  · have := hs.cls; simp only [Token.text] at this; rw [this] at h; simp at h

theorem pre_sound {ts : List Token} (hw : ∀ t ∈ ts, t.isWord = true → WordOK t) {p : List Identifier}
    {r : List Token} (h : pre ts = some (p, r)) : ∃ ps, PreToks p ps ∧ ts = ps ++ r := by
  unfold pre at h
  split at h
  · obtain ⟨its, h1, h2⟩ := parts_sound _ _ (fun t ht => hw t (by simp [ht])) _ _ h
    exact ⟨_, .some _ _ h1, by rw [h2]; rfl⟩
  · simp at h
    obtain ⟨rfl, rfl⟩ := h
    exact ⟨_, .none, rfl⟩

theorem plusBuild_sound {ts : List Token} (hw : ∀ t ∈ ts, t.isWord = true → WordOK t) (ha : NoAdj ts)
    {b : Option (List Char)} {r : List Token} (h : plusBuild ts = some (b, r)) :
    ∃ bs, PlusToks b bs ∧ ts = bs ++ r := by
  unfold plusBuild at h
  split at h
  · split at h
    · simp at h
    · rename_i b' hb
      split at h
      · simp at h
      · simp at h
        obtain ⟨rfl, rfl⟩ := h
        refine ⟨_, .some _ (by rename_i hh; simpa using hh) _
          (buildLoop_sound _ (fun t ht => hw t (by simp [ht])) (noAdj_tail ha) _ hb), by simp⟩
  · simp at h
    obtain ⟨rfl, rfl⟩ := h
    exact ⟨_, .none, rfl⟩

theorem mem_skipWs {t : Token} {ts : List Token} (h : t ∈ skipWs ts) : t ∈ ts := by
  unfold skipWs at h; split at h
  · simp [h]
  · exact h

theorem noAdj_skipWs {ts : List Token} (h : NoAdj ts) : NoAdj (skipWs ts) := by
  unfold skipWs; split
  · exact noAdj_tail h
  · exact h

theorem numeric_inv {ts : List Token} {n : Nat} {r : List Token} (h : numeric ts = some (n, r)) :
    ts = .numeric n :: r := by
  unfold numeric at h; split at h
  · simp at h; obtain ⟨rfl, rfl⟩ := h; rfl
  · simp at h

theorem dotNumeric_inv {ts : List Token} {n : Nat} {r : List Token} (h : dotNumeric ts = some (n, r)) :
    ts = .dot :: .numeric n :: r := by
  unfold dotNumeric at h; split at h
  · rw [numeric_inv h]
  · simp at h

theorem version_sound {ts : List Token} (hw : ∀ t ∈ ts, t.isWord = true → WordOK t) (ha : NoAdj ts)
    {v : Version} {r : List Token} (h : version ts = some (v, r)) : ∃ vts, VersionToks v vts := by
  unfold version at h
  simp only [Option.bind_eq_bind, Option.bind_eq_some_iff] at h
  obtain ⟨⟨M, t1⟩, h1, ⟨m, t2⟩, h2, ⟨p, t3⟩, h3, ⟨pr, t4⟩, h4, ⟨b, t5⟩, h5, h6⟩ := h
  simp at h6
  obtain ⟨rfl, -⟩ := h6
  have hw' : ∀ t ∈ skipWs ts, t.isWord = true → WordOK t := fun t ht => hw t (mem_skipWs ht)
  have ha' := noAdj_skipWs ha
  simp only at h1 h2 h3 h4 h5
  rw [numeric_inv h1, dotNumeric_inv h2, dotNumeric_inv h3] at hw' ha'
  obtain ⟨ps, hps, he⟩ := pre_sound (fun t ht => hw' t (by simp [ht])) h4
  subst he
  obtain ⟨bs, hbs, he⟩ := plusBuild_sound (fun t ht => hw' t (by simp [ht]))
    (noAdj_append (ts := ps) (noAdj_tail (noAdj_tail (noAdj_tail (noAdj_tail (noAdj_tail ha')))))) h5
  exact ⟨_, numeric_le hw' (by simp), numeric_le hw' (by simp), numeric_le hw' (by simp), ps, bs, hps, hbs, rfl⟩

theorem parse_sound {s : List Char} {v : Version} (h : parse s = some v) : ∃ vts, VersionToks v vts := by
  unfold parse at h
  simp only [Option.bind_eq_bind, Option.bind_eq_some_iff] at h
  obtain ⟨ts, h1, ⟨v', r⟩, h2, h3⟩ := h
  simp at h3
  obtain ⟨-, rfl⟩ := h3
  obtain ⟨hw, ha⟩ := lex_ok _ s (Nat.le_refl _) ts h1
  exact version_sound hw ha h2

/-! ### Relation to the specification -/

theorem alnum_iff (c : Char) : isAlnum c = true ↔ Spec.Alnum c := by
  have h1 : '0'.toNat = 48 := rfl
  have h2 : '9'.toNat = 57 := rfl
  have h3 : 'A'.toNat = 65 := rfl
  have h4 : 'Z'.toNat = 90 := rfl
  have h5 : 'a'.toNat = 97 := rfl
  have h6 : 'z'.toNat = 122 := rfl
  simp only [isAlnum, isDigit, Spec.Alnum, h1, h2, h3, h4, h5, h6]
  simp
  omega

theorem segOK_iff (s : List Char) : SegOK s ↔ s ≠ [] ∧ Spec.PlainWord s := by
  constructor
  · rintro ⟨h1, h2, h3, h4⟩
    exact ⟨h1, fun c hc => (alnum_iff c).1 (h2 c hc), h3, h4⟩
  · rintro ⟨h1, h2, h3, h4⟩
    exact ⟨h1, fun c hc => (alnum_iff c).2 (h2 c hc), h3, h4⟩

theorem u32Max_eq : u32Max = Spec.maxU32 := rfl

theorem isNumber_iff (s : List Char) : Spec.IsNumber s ↔ ∃ n, parseU32 s = some n := by
  constructor
  · rintro ⟨h1, h2, h3⟩
    refine ⟨readNat s, ?_⟩
    have : s.all isDigit = true := by rw [List.all_eq_true]; exact h2
    have h1' : s.isEmpty = false := by simpa using h1
    rw [parseU32, h1', this]
    simp only [Bool.false_eq_true, if_false, if_true]
    rw [if_pos (by rw [u32Max_eq]; exact h3)]
  · rintro ⟨n, h⟩
    obtain ⟨h1, h2, h3, h4⟩ := parseU32_some h
    exact ⟨h1, h2, by rw [h3, ← u32Max_eq]; exact h4⟩

theorem zeroPadded_iff (s : List Char) : Spec.ZeroPadded s ↔ classify s = .leadingZero s := by
  constructor
  · rintro ⟨h1, h2, h3⟩
    obtain ⟨n, hn⟩ := (isNumber_iff s).1 h1
    rcases classify_cases s with ⟨m, h4, h5, h6⟩ | ⟨h, -⟩ | ⟨_, h⟩
    · exfalso
      subst h5
      rcases Nat.eq_zero_or_pos m with h0 | h0
      · subst h0; exact h3 rfl
      · exact showNat_head m h0 h2
    · exact h
    · rw [h] at hn; simp at hn
  · intro h
    rcases classify_cases s with ⟨m, h4, -⟩ | ⟨_, h1, h2, h3⟩ | ⟨h', -⟩
    · rw [h] at h4; simp at h4
    · exact ⟨(isNumber_iff s).2 h1, h2, h3⟩
    · rw [h] at h'; simp at h'

theorem isNumber_digits {s : List Char} (h : Spec.IsNumber s) : '-' ∉ s := by
  intro hm
  have := h.2.1 _ hm
  exact absurd this (by decide)

theorem idToks_iff (i : Identifier) : (∃ ts, IdToks i ts) ↔ Spec.ReadableId i := by
  constructor
  · rintro ⟨ts, h⟩
    induction h with
    | num n h => exact h
    | word s h hn =>
      refine ⟨[s], by simp, rfl, ?_, ?_⟩
      · rw [isNumber_iff, hn]; simp
      · intro w hw
        simp at hw; subst hw
        refine ⟨h.ne, ((segOK_iff w).1 h).2, ?_⟩
        rintro ⟨h1, -⟩
        rw [isNumber_iff, hn] at h1; simp at h1
    | cons s h hz i ts hi ih =>
      have key : ∀ i, Spec.ReadableId i → ∃ words, words ≠ [] ∧ i.show = Spec.join '-' words ∧
          ∀ w ∈ words, w ≠ [] ∧ Spec.PlainWord w ∧ ¬ Spec.ZeroPadded w := by
        intro i hi
        cases i with
        | numeric n =>
          refine ⟨[showNat n], by simp, rfl, ?_⟩
          intro w hw
          simp at hw; subst hw
          have := (segOK_iff _).1 (segOK_showNat n)
          refine ⟨this.1, this.2, ?_⟩
          rw [zeroPadded_iff, classify_showNat n hi]; simp
        | alphaNumeric s =>
          obtain ⟨words, h1, h2, -, h3⟩ := hi
          exact ⟨words, h1, h2, h3⟩
      obtain ⟨words, h1, h2, h3⟩ := key i ih
      refine ⟨s :: words, by simp, ?_, ?_, ?_⟩
      · cases words with
        | nil => exact absurd rfl h1
        | cons w ws => rw [Spec.join, h2]; simp
      · intro hnum
        exact isNumber_digits hnum (by simp)
      · intro w hw
        rcases List.mem_cons.1 hw with rfl | hw
        · have := (segOK_iff _).1 h
          exact ⟨this.1, this.2, by rw [zeroPadded_iff]; exact hz⟩
        · exact h3 w hw
  · intro h
    cases i with
    | numeric n => exact ⟨_, .num n h⟩
    | alphaNumeric s =>
      obtain ⟨words, h1, rfl, h2, h3⟩ := h
      have key : ∀ words : List (List Char), words ≠ [] →
          (∀ w ∈ words, w ≠ [] ∧ Spec.PlainWord w ∧ ¬ Spec.ZeroPadded w) →
          ∃ i ts, IdToks i ts ∧ i.show = Spec.join '-' words ∧
            (¬ Spec.IsNumber (Spec.join '-' words) → i = .alphaNumeric (Spec.join '-' words)) := by
        intro words hne hw
        induction words with
        | nil => exact absurd rfl hne
        | cons w ws ih =>
          obtain ⟨w1, w2, w3⟩ := hw w (by simp)
          have hs := (segOK_iff w).2 ⟨w1, w2⟩
          cases ws with
          | nil =>
            rcases classify_cases w with ⟨n, c1, c2, c3⟩ | ⟨c, -⟩ | ⟨c1, c2⟩
            · refine ⟨_, _, .num n c3, c2, ?_⟩
              intro hnn
              exfalso; apply hnn
              simp only [Spec.join]
              rw [← c2]
              refine ⟨showNat_ne_nil n, showNat_digits n, ?_⟩
              rw [readNat_showNat]; exact c3
            · exact absurd ((zeroPadded_iff w).2 c) w3
            · exact ⟨_, _, .word w hs c2, rfl, fun _ => rfl⟩
          | cons v vs =>
            obtain ⟨i, ts, hi, hsh, -⟩ := ih (by simp) (fun w hw' => hw w (by simp at hw' ⊢; tauto))
            have hc := IdToks.cons w hs (fun hc => w3 ((zeroPadded_iff w).2 hc)) i ts hi
            rw [hsh] at hc
            exact ⟨_, _, hc, rfl, fun _ => rfl⟩
      obtain ⟨i, ts, hi, -, hx⟩ := key words h1 h3
      rw [hx h2] at hi
      exact ⟨ts, hi⟩

theorem partsToks_iff (is : List Identifier) :
    (∃ ts, PartsToks is ts) ↔ is ≠ [] ∧ ∀ i ∈ is, Spec.ReadableId i := by
  constructor
  · rintro ⟨ts, h⟩
    refine ⟨partsToks_ne h, ?_⟩
    induction h with
    | one i ts h => intro j hj; simp at hj; subst hj; exact (idToks_iff j).1 ⟨_, h⟩
    | cons i ts h is ts' h' ih =>
      intro j hj
      rcases List.mem_cons.1 hj with rfl | hj
      · exact (idToks_iff j).1 ⟨_, h⟩
      · exact ih j hj
  · rintro ⟨hne, h⟩
    induction is with
    | nil => exact absurd rfl hne
    | cons i is ih =>
      obtain ⟨ts, hi⟩ := (idToks_iff i).2 (h i (by simp))
      cases is with
      | nil => exact ⟨_, .one i ts hi⟩
      | cons j js =>
        obtain ⟨ts', h'⟩ := ih (by simp) (fun i hi' => h i (by simp at hi' ⊢; tauto))
        exact ⟨_, .cons i ts hi _ ts' h'⟩

theorem preToks_iff (is : List Identifier) : (∃ ts, PreToks is ts) ↔ ∀ i ∈ is, Spec.ReadableId i := by
  constructor
  · rintro ⟨ts, h⟩
    cases h with
    | none => simp
    | some _ ts h => exact ((partsToks_iff is).1 ⟨ts, h⟩).2
  · intro h
    cases is with
    | nil => exact ⟨_, .none⟩
    | cons i is =>
      obtain ⟨ts, h⟩ := (partsToks_iff (i :: is)).2 ⟨by simp, h⟩
      exact ⟨_, .some _ ts h⟩

theorem plainWord_nil : Spec.PlainWord [] := by
  refine ⟨by simp, ?_, ?_⟩ <;> simp

theorem buildToks_iff (b : List Char) : (∃ ts, BuildToks b ts) ↔
    ∃ words, words ≠ [] ∧ b = Spec.join '.' words ∧ ∀ w ∈ words, Spec.PlainWord w := by
  constructor
  · rintro ⟨ts, h⟩
    induction h with
    | nil => exact ⟨[[]], by simp, rfl, by simpa using plainWord_nil⟩
    | word s h => exact ⟨[s], by simp, rfl, by simpa using ((segOK_iff s).1 h).2⟩
    | dot b ts h ih =>
      obtain ⟨ws, h1, rfl, h2⟩ := ih
      refine ⟨[] :: ws, by simp, ?_, ?_⟩
      · cases ws with
        | nil => exact absurd rfl h1
        | cons w ws => rfl
      · intro w hw
        rcases List.mem_cons.1 hw with rfl | hw
        · exact plainWord_nil
        · exact h2 w hw
    | wordDot s h b ts h' ih =>
      obtain ⟨ws, h1, rfl, h2⟩ := ih
      refine ⟨s :: ws, by simp, ?_, ?_⟩
      · cases ws with
        | nil => exact absurd rfl h1
        | cons w ws => rfl
      · intro w hw
        rcases List.mem_cons.1 hw with rfl | hw
        · exact ((segOK_iff w).1 h).2
        · exact h2 w hw
  · rintro ⟨ws, h1, rfl, h2⟩
    induction ws with
    | nil => exact absurd rfl h1
    | cons w ws ih =>
      have hw := h2 w (by simp)
      cases ws with
      | nil =>
        cases w with
        | nil => exact ⟨_, .nil⟩
        | cons c w => exact ⟨_, .word (c :: w) ((segOK_iff (c :: w)).2 ⟨by simp, hw⟩)⟩
      | cons v vs =>
        obtain ⟨ts, h⟩ := ih (by simp) (fun w hw' => h2 w (by simp at hw' ⊢; tauto))
        cases w with
        | nil => exact ⟨_, .dot _ _ h⟩
        | cons c w => exact ⟨_, .wordDot _ ((segOK_iff _).2 ⟨by simp, hw⟩) _ _ h⟩

theorem plusToks_iff (b : Option (List Char)) : (∃ ts, PlusToks b ts) ↔ Spec.ReadableBuild b := by
  cases b with
  | none => exact ⟨fun _ => trivial, fun _ => ⟨_, .none⟩⟩
  | some b =>
    constructor
    · rintro ⟨ts, h⟩
      cases h with
      | some _ hb ts h => exact ⟨hb, (buildToks_iff b).1 ⟨_, h⟩⟩
    · rintro ⟨hb, h⟩
      obtain ⟨ts, h⟩ := (buildToks_iff b).2 h
      exact ⟨_, .some _ hb ts h⟩

theorem versionToks_iff (v : Version) : (∃ ts, VersionToks v ts) ↔ Spec.Readable v := by
  constructor
  · rintro ⟨ts, h1, h2, h3, ps, bs, h4, h5, rfl⟩
    exact ⟨h1, h2, h3, (preToks_iff _).1 ⟨_, h4⟩, (plusToks_iff _).1 ⟨_, h5⟩⟩
  · rintro ⟨h1, h2, h3, h4, h5⟩
    obtain ⟨ps, h4⟩ := (preToks_iff _).2 h4
    obtain ⟨bs, h5⟩ := (plusToks_iff _).2 h5
    exact ⟨_, h1, h2, h3, ps, bs, h4, h5, rfl⟩

end Verif.Version
