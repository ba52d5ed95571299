import Verif.Pretty.Lemmas
/-! Layouts, positions and first lines. -/
namespace Verif.Pretty

open Spec

def evChars (evs : List Ev) : List Char := evs.flatMap Ev.chars

theorem evChars_append (a b : List Ev) : evChars (a ++ b) = evChars a ++ evChars b := by simp [evChars]

theorem truthful_append (p : Pos) (a b : List Ev) :
    Truthful p (a ++ b) ↔ Truthful p a ∧ Truthful (a.foldl after p) b := by
  induction a generalizing p with
  | nil => simp [Truthful]
  | cons e a ih =>
    cases e <;> simp [Truthful, ih, after, and_assoc]

/-- What printing one document does. -/
def Prints (d : Doc) (i : Int) (m : Mode) (p : Pos) (evs : List Ev) (p' : Pos) : Prop :=
  Layout d i (m == .broken) (evChars evs) ∧
  (Sane d → 0 ≤ i → p' = evs.foldl after p ∧ Truthful p evs)

theorem formatIndent_nonneg {i n : Int} (hi : 0 ≤ i) (hn : 0 ≤ n) (nm : NestMode) (c : NestCondition) (m : Mode) :
    0 ≤ formatIndent i n nm c m := by
  unfold formatIndent
  split
  · cases nm <;> simp [newIndent] <;> omega
  · exact hi

theorem replicate_newlines (n : Nat) (p : Pos) (i : Int) (hn : 0 < n) (hi : 0 ≤ i) :
    (List.replicate n Ev.newline ++ [Ev.spaces i.toNat]).foldl after p = ⟨p.line + n, i⟩ ∧
    Truthful p (List.replicate n Ev.newline ++ [Ev.spaces i.toNat]) := by
  induction n generalizing p with
  | zero => omega
  | succ n ih =>
    cases n with
    | zero => simp [after, Truthful]; omega
    | succ n =>
      have := ih (after p .newline) (by omega)
      simp only [List.replicate_succ (n := n + 1), List.cons_append, List.foldl_cons, Truthful]
      refine ⟨?_, this.2⟩
      rw [this.1]
      simp [after]; omega

theorem den_prints (limit : Int) (d : Doc) (i : Int) (m : Mode) (hm : m = .broken ∨ m = .unbroken) (kf : Int → Bool)
    (k : Pos → List Ev) (p : Pos) : ∃ evs p', den limit d i m kf k p = evs ++ k p' ∧ Prints d i m p evs p' := by
  induction d generalizing i m kf k p with
  | line n =>
    refine ⟨List.replicate n .newline ++ [.spaces i.toNat], _, by simp only [den, List.append_assoc]; rfl, ?_, ?_⟩
    · simp [Layout, evChars, Ev.chars, List.flatMap_replicate, List.flatten_replicate_singleton]
    · intro hs hi
      obtain ⟨h1, h2⟩ := replicate_newlines n p i hs hi
      exact ⟨h1.symm, h2⟩
  | brk b u kind =>
    have hbr : ∃ evs p', brokenEvents b i ++ k ⟨p.line + 1, i⟩ = evs ++ k p' ∧
        evChars evs = b ++ '\n' :: List.replicate i.toNat ' ' ∧ (0 ≤ i → p' = evs.foldl after p ∧ Truthful p evs) := by
      refine ⟨brokenEvents b i, _, rfl, by simp [evChars, brokenEvents, Ev.chars], ?_⟩
      intro hi
      simp [brokenEvents, after, Truthful]; omega
    have hun : ∃ evs p', Ev.text u (byteLen u) :: k ⟨p.line, p.width + byteLen u⟩ = evs ++ k p' ∧ evChars evs = u ∧
        p' = evs.foldl after p ∧ Truthful p evs :=
      ⟨[.text u (byteLen u)], _, rfl, by simp [evChars, Ev.chars], rfl, trivial⟩
    obtain ⟨e1, p1, h1, h2, h3⟩ := hbr
    obtain ⟨e2, p2, g1, g2, g3⟩ := hun
    cases kind with
    | flex =>
      simp only [den]
      split
      · exact ⟨e2, p2, g1, Or.inr ⟨Or.inr rfl, g2⟩, fun _ _ => g3⟩
      · rename_i hn
        have : m = .broken := hm.resolve_right (fun h => hn (Or.inl h))
        exact ⟨e1, p1, h1, Or.inl ⟨by simp [this], h2⟩, fun _ hi => h3 hi⟩
    | strict =>
      simp only [den]
      split
      · rename_i hb
        have : m = .broken := hb.resolve_right (fun h => by rcases hm with hm | hm <;> simp [hm] at h)
        exact ⟨e1, p1, h1, Or.inl ⟨by simp [this], h2⟩, fun _ hi => h3 hi⟩
      · rename_i hn
        have : m = .unbroken := hm.resolve_left (fun h => hn (Or.inl h))
        exact ⟨e2, p2, g1, Or.inr ⟨Or.inl (by simp [this]), g2⟩, fun _ _ => g3⟩
  | str s g => exact ⟨[.text s g], _, rfl, by simp [Layout, evChars, Ev.chars], fun _ _ => ⟨rfl, trivial⟩⟩
  | zeroWidth s => exact ⟨[.text s 0], p, rfl, by simp [Layout, evChars, Ev.chars], fun _ _ => ⟨by simp [after], trivial⟩⟩
  | observer n =>
    exact ⟨[.observed n p.line p.width], p, rfl, by simp [Layout, evChars, Ev.chars], fun _ _ => ⟨rfl, rfl, rfl, trivial⟩⟩
  | empty => exact ⟨[], p, rfl, by simp [Layout, evChars], fun _ _ => ⟨rfl, trivial⟩⟩
  | join a b iha ihb =>
    simp only [den]
    obtain ⟨e1, p1, h1, l1, t1⟩ := iha i m hm _ (fun p => den limit b i m kf k p) p
    obtain ⟨e2, p2, h2, l2, t2⟩ := ihb i m hm kf k p1
    refine ⟨e1 ++ e2, p2, by rw [h1, h2]; simp, ?_, ?_⟩
    · exact ⟨_, _, evChars_append _ _, l1, l2⟩
    · rintro ⟨s1, s2⟩ hi
      obtain ⟨rfl, q1⟩ := t1 s1 hi
      obtain ⟨rfl, q2⟩ := t2 s2 hi
      exact ⟨by simp, (truthful_append _ _ _).2 ⟨q1, q2⟩⟩
  | join3 a b c iha ihb ihc =>
    simp only [den]
    obtain ⟨e1, p1, h1, l1, t1⟩ := iha i m hm _ (fun p => den limit b i m (fun w => (meas m c).cont limit kf w)
      (fun p => den limit c i m kf k p) p) p
    obtain ⟨e2, p2, h2, l2, t2⟩ := ihb i m hm _ (fun p => den limit c i m kf k p) p1
    obtain ⟨e3, p3, h3, l3, t3⟩ := ihc i m hm kf k p2
    refine ⟨e1 ++ e2 ++ e3, p3, by rw [h1, h2, h3]; simp, ?_, ?_⟩
    · exact ⟨_, _, _, by simp [evChars_append], l1, l2, l3⟩
    · rintro ⟨s1, s2, s3⟩ hi
      obtain ⟨rfl, q1⟩ := t1 s1 hi
      obtain ⟨rfl, q2⟩ := t2 s2 hi
      obtain ⟨rfl, q3⟩ := t3 s3 hi
      exact ⟨by simp, (truthful_append _ _ _).2 ⟨(truthful_append _ _ _).2 ⟨q1, q2⟩, by simpa using q3⟩⟩
  | join4 a b c d iha ihb ihc ihd =>
    simp only [den]
    obtain ⟨e1, p1, h1, l1, t1⟩ := iha i m hm _ (fun p => den limit b i m
      (fun w => ((meas m c).seq (meas m d)).cont limit kf w) (fun p => den limit c i m
      (fun w => (meas m d).cont limit kf w) (fun p => den limit d i m kf k p) p) p) p
    obtain ⟨e2, p2, h2, l2, t2⟩ := ihb i m hm _ (fun p => den limit c i m (fun w => (meas m d).cont limit kf w)
      (fun p => den limit d i m kf k p) p) p1
    obtain ⟨e3, p3, h3, l3, t3⟩ := ihc i m hm _ (fun p => den limit d i m kf k p) p2
    obtain ⟨e4, p4, h4, l4, t4⟩ := ihd i m hm kf k p3
    refine ⟨e1 ++ e2 ++ e3 ++ e4, p4, by rw [h1, h2, h3, h4]; simp, ?_, ?_⟩
    · exact ⟨_, _, _, _, by simp [evChars_append], l1, l2, l3, l4⟩
    · rintro ⟨s1, s2, s3, s4⟩ hi
      obtain ⟨rfl, q1⟩ := t1 s1 hi
      obtain ⟨rfl, q2⟩ := t2 s2 hi
      obtain ⟨rfl, q3⟩ := t3 s3 hi
      obtain ⟨rfl, q4⟩ := t4 s4 hi
      exact ⟨by simp, (truthful_append _ _ _).2 ⟨(truthful_append _ _ _).2 ⟨(truthful_append _ _ _).2 ⟨q1, q2⟩,
        by simpa using q3⟩, by simpa using q4⟩⟩
  | nest n nm c d ih =>
    simp only [den]
    obtain ⟨e, p', h, l, t⟩ := ih (formatIndent i n nm c m) m hm kf k p
    refine ⟨e, p', h, ?_, fun s hi => t s.2 (formatIndent_nonneg hi s.1 nm c m)⟩
    rcases hm with rfl | rfl <;> cases nm <;> cases c <;> simpa [Layout, formatIndent, newIndent] using l
  | group d ih =>
    simp only [den]
    split
    · obtain ⟨e, p', h, l, t⟩ := ih i .unbroken (Or.inr rfl) kf k p
      exact ⟨e, p', h, ⟨_, l⟩, fun s hi => t s hi⟩
    · obtain ⟨e, p', h, l, t⟩ := ih i .broken (Or.inl rfl) kf k p
      exact ⟨e, p', h, ⟨_, l⟩, fun s hi => t s hi⟩
  | forceBroken d ih =>
    simp only [den]
    obtain ⟨e, p', h, l, t⟩ := ih i m hm kf k p
    exact ⟨e, p', h, by simpa [Layout] using l, fun s hi => t s hi⟩
  | nextBreakFits d e ih =>
    simp only [den]
    obtain ⟨e, p', h, l, t⟩ := ih i m hm kf k p
    exact ⟨e, p', h, by simpa [Layout] using l, fun s hi => t s hi⟩

/-! ### Content -/

theorem content_append (a b : List Char) : content (a ++ b) = content a ++ content b := by simp [content]

theorem content_spaces (n : Nat) : content (List.replicate n ' ') = [] := by simp [content]
theorem content_newlines (n : Nat) : content (List.replicate n '\n') = [] := by simp [content]

theorem layout_content (d : Doc) (i : Int) (broken : Bool) (out : List Char) (h : Layout d i broken out)
    (hb : BreaksAgree d) : content out = docContent d := by
  induction d generalizing i broken out with
  | line n => simp only [Layout] at h; subst h; simp [content_append, content_spaces, content_newlines, docContent]
  | brk b u kind =>
    rcases h with ⟨-, rfl⟩ | ⟨-, rfl⟩
    · have : b ++ '\n' :: List.replicate i.toNat ' ' = b ++ (List.replicate 1 '\n' ++ List.replicate i.toNat ' ') := rfl
      rw [this, content_append, content_append, content_spaces, content_newlines]
      simp only [BreaksAgree] at hb
      simp [docContent, hb]
    · rfl
  | join a b iha ihb =>
    obtain ⟨x, y, rfl, h1, h2⟩ := h
    rw [content_append, iha _ _ _ h1 hb.1, ihb _ _ _ h2 hb.2]; rfl
  | join3 a b c iha ihb ihc =>
    obtain ⟨x, y, z, rfl, h1, h2, h3⟩ := h
    rw [content_append, content_append, iha _ _ _ h1 hb.1, ihb _ _ _ h2 hb.2.1, ihc _ _ _ h3 hb.2.2]; rfl
  | join4 a b c d iha ihb ihc ihd =>
    obtain ⟨x, y, z, w, rfl, h1, h2, h3, h4⟩ := h
    rw [content_append, content_append, content_append, iha _ _ _ h1 hb.1, ihb _ _ _ h2 hb.2.1, ihc _ _ _ h3 hb.2.2.1,
      ihd _ _ _ h4 hb.2.2.2]; rfl
  | nest n nm c d ih => cases nm <;> cases c <;> exact ih _ _ _ h hb
  | group d ih => obtain ⟨b, h⟩ := h; exact ih _ _ _ h hb
  | forceBroken d ih | nextBreakFits d e ih => exact ih _ _ _ h hb
  | str s g => simp only [Layout] at h; subst h; rfl
  | zeroWidth s => simp only [Layout] at h; subst h; rfl
  | observer n => simp only [Layout] at h; subst h; rfl
  | empty => simp only [Layout] at h; subst h; rfl

/-! ### First lines -/

/-- The measure of a plain document is that of its first line printed flat. -/
def flatMeas (f : Flat) : Meas := if f.forced then .forced else if f.newline then .ends f.columns else .runs f.columns

theorem flatMeas_andThen (a b : Flat) : flatMeas (a.andThen b) = (flatMeas a).seq (flatMeas b) := by
  obtain ⟨t, c, n, f⟩ := a
  obtain ⟨t', c', n', f'⟩ := b
  cases n <;> cases f <;> cases n' <;> cases f' <;> simp [flatMeas, Flat.andThen, Meas.seq]

theorem meas_flat (d : Doc) (h : Plain d) (m : Mode) (hm : m = .unbroken ∨ m = .forcedUnbroken) :
    meas m d = flatMeas (flat d) := by
  induction d generalizing m with
  | brk b u k => rcases hm with rfl | rfl <;> simp [meas, flat, flatMeas]
  | forceBroken d ih => rcases hm with rfl | rfl <;> simp [meas, flat, flatMeas]
  | join a b iha ihb => simp only [meas, flat, flatMeas_andThen, iha h.1 m hm, ihb h.2 m hm]
  | join3 a b c iha ihb ihc => simp only [meas, flat, flatMeas_andThen, iha h.1 m hm, ihb h.2.1 m hm, ihc h.2.2 m hm]
  | join4 a b c d iha ihb ihc ihd =>
    simp only [meas, flat, flatMeas_andThen, iha h.1 m hm, ihb h.2.1 m hm, ihc h.2.2.1 m hm, ihd h.2.2.2 m hm]
  | nest n nm c d ih => simp only [meas, flat, ih h m hm]
  | group d ih => rcases hm with rfl | rfl <;> simp only [meas, flat, groupMode] <;> exact ih h _ (by simp)
  | nextBreakFits d e ih =>
    obtain ⟨rfl, h⟩ := h
    simp only [meas, flat, nextMode]
    exact ih h _ (by simp)
  | _ => simp [meas, flat, flatMeas]

/-- If the first line fits, printing the document unbroken prints that line. -/
def FlatOk (limit : Int) (d : Doc) : Prop :=
  ∀ (i : Int) (kf : Int → Bool) (k : Pos → List Ev) (p : Pos),
    (flat d).forced = false → p.width + (flat d).columns ≤ limit →
    ((flat d).newline = false → ∃ evs, den limit d i .unbroken kf k p = evs ++ k ⟨p.line, p.width + (flat d).columns⟩ ∧
      evChars evs = (flat d).text) ∧
    ((flat d).newline = true → ∃ evs post, den limit d i .unbroken kf k p = evs ++ .newline :: post ∧
      evChars evs = (flat d).text)

theorem FlatOk.join {limit : Int} {a b : Doc} (ha : FlatOk limit a) (hb : FlatOk limit b) : FlatOk limit (.join a b) := by
  intro i kf k p hf hw
  simp only [flat, Flat.andThen] at *
  cases hn : (flat a).newline with
  | true =>
    simp only [hn, if_true] at hf hw ⊢
    refine ⟨by simp, fun _ => ?_⟩
    simp only [den]
    exact (ha i _ _ p hf hw).2 hn
  | false =>
    simp only [hn, Bool.false_eq_true, if_false, Bool.or_eq_false_iff] at hf hw ⊢
    obtain ⟨e1, h1, t1⟩ := (ha i (fun w => (meas .unbroken b).cont limit kf w) (fun p => den limit b i .unbroken kf k p) p
      hf.1 (by omega)).1 hn
    have hb' := hb i kf k ⟨p.line, p.width + (flat a).columns⟩ hf.2 (by simp; omega)
    simp only [den]
    rw [h1]
    refine ⟨fun hnb => ?_, fun hnb => ?_⟩
    · obtain ⟨e2, h2, t2⟩ := hb'.1 hnb
      refine ⟨e1 ++ e2, ?_, by rw [evChars_append, t1, t2]⟩
      rw [h2]
      simp [Int.add_assoc]
    · obtain ⟨e2, post, h2, t2⟩ := hb'.2 hnb
      exact ⟨e1 ++ e2, post, by rw [h2]; simp, by rw [evChars_append, t1, t2]⟩

theorem den_flat (limit : Int) (d : Doc) (hp : Plain d) (hs : Sane d) : FlatOk limit d := by
  induction d with
  | join a b iha ihb => exact (iha hp.1 hs.1).join (ihb hp.2 hs.2)
  | join3 a b c iha ihb ihc =>
    have := (iha hp.1 hs.1).join ((ihb hp.2.1 hs.2.1).join (ihc hp.2.2 hs.2.2))
    intro i kf k p
    have := this i kf k p
    simp only [den, meas, flat] at this ⊢
    exact this
  | join4 a b c d iha ihb ihc ihd =>
    have := (iha hp.1 hs.1).join ((ihb hp.2.1 hs.2.1).join ((ihc hp.2.2.1 hs.2.2.1).join (ihd hp.2.2.2 hs.2.2.2)))
    intro i kf k p
    have := this i kf k p
    simp only [den, meas, flat] at this ⊢
    exact this
  | line n =>
    intro i kf k p hf hw
    refine ⟨by simp [flat], fun _ => ?_⟩
    have hn : 0 < n := hs
    obtain ⟨n, rfl⟩ : ∃ n', n = n' + 1 := ⟨n - 1, by omega⟩
    exact ⟨[], _, by simp only [den, List.replicate_succ]; rfl, rfl⟩
  | brk b u kind =>
    intro i kf k p hf hw
    refine ⟨fun _ => ⟨[.text u (byteLen u)], ?_, by simp [evChars, Ev.chars, flat]⟩, by simp [flat]⟩
    cases kind <;> simp [den, flat]
  | str s g =>
    intro i kf k p hf hw
    exact ⟨fun _ => ⟨[.text s g], by simp [den, flat], by simp [evChars, Ev.chars, flat]⟩, by simp [flat]⟩
  | zeroWidth s =>
    intro i kf k p hf hw
    exact ⟨fun _ => ⟨[.text s 0], by simp [den, flat], by simp [evChars, Ev.chars, flat]⟩, by simp [flat]⟩
  | observer n =>
    intro i kf k p hf hw
    exact ⟨fun _ => ⟨[.observed n p.line p.width], by simp [den, flat], by simp [evChars, Ev.chars, flat]⟩, by simp [flat]⟩
  | empty =>
    intro i kf k p hf hw
    exact ⟨fun _ => ⟨[], by simp [den, flat], by simp [evChars, flat]⟩, by simp [flat]⟩
  | nest n nm c d ih =>
    intro i kf k p hf hw
    simp only [den, flat] at *
    exact ih hp hs.2 _ _ _ _ hf hw
  | forceBroken d ih => intro i kf k p hf; simp [flat] at hf
  | nextBreakFits d e ih =>
    intro i kf k p hf hw
    simp only [den, flat] at *
    exact ih hp.2 hs _ _ _ _ hf hw
  | group d ih =>
    intro i kf k p hf hw
    have : (meas .unbroken d).cont limit (fun w => decide (w ≤ limit)) p.width = true := by
      rw [meas_flat d hp _ (Or.inl rfl)]
      simp only [flat] at hf hw
      simp only [flatMeas, hf]
      cases (flat d).newline <;> simpa [Meas.cont] using hw
    simp only [den, this, if_true, flat] at *
    exact ih hp hs _ _ _ _ hf hw

end Verif.Pretty
