import Verif.Pretty.Spec
/-! Lemmas about the pretty printer. -/
namespace Verif.Pretty

open Spec

/-! ### `fits` -/

/-- What `fits` finds in one document: a forced break, a certain newline after so many columns, or so many columns. -/
inductive Meas where
  | forced
  | ends (w : Nat)
  | runs (w : Nat)

def Meas.seq : Meas → Meas → Meas
  | .runs v, .runs w => .runs (v + w)
  | .runs v, .ends w => .ends (v + w)
  | .runs _, .forced => .forced
  | m, _ => m

def meas : Mode → Doc → Meas
  | m, .forceBroken d => if m = .forcedBroken then meas m d else .forced
  | _, .line _ => .ends 0
  | m, .nest _ _ _ d => meas m d
  | m, .group d => meas (groupMode m) d
  | _, .str _ g => .runs g
  | _, .zeroWidth _ => .runs 0
  | _, .observer _ => .runs 0
  | m, .brk _ u _ => if m = .broken ∨ m = .forcedBroken then .ends 0 else .runs (byteLen u)
  | m, .nextBreakFits d e => meas (nextMode e m) d
  | m, .join a b => (meas m a).seq (meas m b)
  | m, .join3 a b c => (meas m a).seq ((meas m b).seq (meas m c))
  | m, .join4 a b c d => (meas m a).seq ((meas m b).seq ((meas m c).seq (meas m d)))
  | _, .empty => .runs 0

/-- Continue after a measured document. -/
def Meas.cont (limit : Int) (k : Int → Bool) (w : Int) : Meas → Bool
  | .forced => false
  | .ends v => decide (w + v ≤ limit)
  | .runs v => k (w + v)

/-- Nothing fits beyond the limit. -/
def Bounded (limit : Int) (k : Int → Bool) : Prop := ∀ w, limit < w → k w = false

theorem fits_bounded (limit : Int) (q : List Entry) : Bounded limit (fun w => fits limit w q) := by
  intro w h
  show fits limit w q = false
  unfold fits
  rw [if_pos h]

theorem cont_bounded (limit : Int) (k : Int → Bool) (hk : Bounded limit k) (m : Meas) :
    Bounded limit (fun w => m.cont limit k w) := by
  intro w h
  cases m with
  | forced => rfl
  | ends v => simp [Meas.cont]; omega
  | runs v => exact hk _ (by omega)

theorem cont_seq (limit : Int) (k : Int → Bool) (hk : Bounded limit k) (a b : Meas) (w : Int) :
    (a.seq b).cont limit k w = a.cont limit (fun w => b.cont limit k w) w := by
  cases a <;> cases b <;> simp [Meas.seq, Meas.cont] <;> congr 1 <;> omega

theorem fits_nil (limit w : Int) : fits limit w [] = decide (w ≤ limit) := by
  unfold fits
  by_cases h : w > limit
  · rw [if_pos h]; simp; omega
  · rw [if_neg h]; simp; omega

theorem beyond (limit : Int) (q' : List Entry) (x : Meas) (q : List Entry) (w : Int) (h : w > limit) :
    fits limit w q' = x.cont limit (fun w => fits limit w q) w :=
  (fits_bounded limit q' w h).trans (cont_bounded limit _ (fits_bounded limit q) x w h).symm

theorem fits_cons (limit : Int) (i : Int) (m : Mode) (d : Doc) (q : List Entry) (w : Int) :
    fits limit w (⟨i, m, d⟩ :: q) = (meas m d).cont limit (fun w => fits limit w q) w := by
  by_cases h : w > limit
  · exact beyond _ _ _ _ _ h
  induction d generalizing i m q w with
  | forceBroken d ih =>
    conv => lhs; unfold fits
    simp only [if_neg h, meas]
    split
    · exact ih _ _ _ _ h
    · rfl
  | line n =>
    conv => lhs; unfold fits
    simp only [if_neg h, meas, Meas.cont]; simp; omega
  | nest n nm c d ih =>
    conv => lhs; unfold fits
    simp only [if_neg h, meas]
    exact ih _ _ _ _ h
  | group d ih =>
    conv => lhs; unfold fits
    simp only [if_neg h, meas]
    exact ih _ _ _ _ h
  | str s g =>
    conv => lhs; unfold fits
    simp only [if_neg h, meas, Meas.cont]
  | zeroWidth s =>
    conv => lhs; unfold fits
    simp [if_neg h, meas, Meas.cont]
  | observer n =>
    conv => lhs; unfold fits
    simp [if_neg h, meas, Meas.cont]
  | brk b u k =>
    conv => lhs; unfold fits
    simp only [if_neg h, meas]
    split
    · simp [Meas.cont]; omega
    · rfl
  | nextBreakFits d e ih =>
    conv => lhs; unfold fits
    simp only [if_neg h, meas]
    exact ih _ _ _ _ h
  | join a b iha ihb =>
    conv => lhs; unfold fits
    simp only [if_neg h, meas]
    rw [iha _ _ _ _ h, cont_seq _ _ (fits_bounded limit q)]
    congr 1; funext w'
    by_cases h' : w' > limit
    · exact beyond _ _ _ _ _ h'
    · exact ihb _ _ _ _ h'
  | join3 a b c iha ihb ihc =>
    conv => lhs; unfold fits
    simp only [if_neg h, meas]
    rw [iha _ _ _ _ h, cont_seq _ _ (fits_bounded limit q)]
    congr 1; funext w'
    by_cases h' : w' > limit
    · exact beyond _ _ _ _ _ h'
    · rw [ihb _ _ _ _ h', cont_seq _ _ (fits_bounded limit q)]
      congr 1; funext w2
      by_cases h2 : w2 > limit
      · exact beyond _ _ _ _ _ h2
      · exact ihc _ _ _ _ h2
  | join4 a b c d iha ihb ihc ihd =>
    conv => lhs; unfold fits
    simp only [if_neg h, meas]
    rw [iha _ _ _ _ h, cont_seq _ _ (fits_bounded limit q)]
    congr 1; funext w'
    by_cases h' : w' > limit
    · exact beyond _ _ _ _ _ h'
    · rw [ihb _ _ _ _ h', cont_seq _ _ (fits_bounded limit q)]
      congr 1; funext w2
      by_cases h2 : w2 > limit
      · exact beyond _ _ _ _ _ h2
      · rw [ihc _ _ _ _ h2, cont_seq _ _ (fits_bounded limit q)]
        congr 1; funext w3
        by_cases h3 : w3 > limit
        · exact beyond _ _ _ _ _ h3
        · exact ihd _ _ _ _ h3
  | empty =>
    conv => lhs; unfold fits
    simp [if_neg h, meas, Meas.cont]

theorem fits_one (limit : Int) (i : Int) (m : Mode) (d : Doc) (w : Int) :
    fits limit w [⟨i, m, d⟩] = (meas m d).cont limit (fun w => decide (w ≤ limit)) w := by
  rw [fits_cons]
  congr 1; funext w; exact fits_nil limit w

/-! ### `format` as a function of what follows -/

/-- `kf` tells whether what follows fits from a column on, `k` prints it. -/
def den (limit : Int) : Doc → Int → Mode → (Int → Bool) → (Pos → List Ev) → Pos → List Ev
  | .line n, i, _, _, k, p => List.replicate n .newline ++ .spaces i.toNat :: k ⟨p.line + n, i⟩
  | .brk b u .flex, i, m, kf, k, p =>
    if m = .unbroken ∨ kf (p.width + byteLen u) = true then
      .text u (byteLen u) :: k ⟨p.line, p.width + byteLen u⟩
    else brokenEvents b i ++ k ⟨p.line + 1, i⟩
  | .brk b u .strict, i, m, _, k, p =>
    if m = .broken ∨ m = .forcedBroken then brokenEvents b i ++ k ⟨p.line + 1, i⟩
    else .text u (byteLen u) :: k ⟨p.line, p.width + byteLen u⟩
  | .str s g, _, _, _, k, p => .text s g :: k ⟨p.line, p.width + g⟩
  | .zeroWidth s, _, _, _, k, p => .text s 0 :: k p
  | .join a b, i, m, kf, k, p =>
    den limit a i m (fun w => (meas m b).cont limit kf w) (fun p => den limit b i m kf k p) p
  | .join3 a b c, i, m, kf, k, p =>
    den limit a i m (fun w => ((meas m b).seq (meas m c)).cont limit kf w)
      (fun p => den limit b i m (fun w => (meas m c).cont limit kf w) (fun p => den limit c i m kf k p) p) p
  | .join4 a b c d, i, m, kf, k, p =>
    den limit a i m (fun w => ((meas m b).seq ((meas m c).seq (meas m d))).cont limit kf w)
      (fun p => den limit b i m (fun w => ((meas m c).seq (meas m d)).cont limit kf w)
        (fun p => den limit c i m (fun w => (meas m d).cont limit kf w) (fun p => den limit d i m kf k p) p) p) p
  | .nest n nm c d, i, m, kf, k, p => den limit d (formatIndent i n nm c m) m kf k p
  | .group d, i, _, kf, k, p =>
    if (meas .unbroken d).cont limit (fun w => decide (w ≤ limit)) p.width = true then den limit d i .unbroken kf k p
    else den limit d i .broken kf k p
  | .forceBroken d, i, m, kf, k, p => den limit d i m kf k p
  | .nextBreakFits d _, i, m, kf, k, p => den limit d i m kf k p
  | .observer id, _, _, _, k, p => .observed id p.line p.width :: k p
  | .empty, _, _, _, k, p => k p

theorem format_den (limit : Int) (d : Doc) (i : Int) (m : Mode) (q : List Entry) (p : Pos) :
    format limit (⟨i, m, d⟩ :: q) p = den limit d i m (fun w => fits limit w q) (fun p => format limit q p) p := by
  induction d generalizing i m q p with
  | brk b u kind => conv => lhs; unfold format
                    cases kind <;> rfl
  | join a b iha ihb =>
    conv => lhs; unfold format
    simp only [iha, den]
    congr 1
    · funext w; exact fits_cons ..
    · funext p; exact ihb ..
  | join3 a b c iha ihb ihc =>
    conv => lhs; unfold format
    simp only [iha, den]
    congr 1
    · funext w; rw [fits_cons, cont_seq _ _ (fits_bounded limit q)]; congr 1; funext w; exact fits_cons ..
    · funext p; rw [ihb]; congr 1
      · funext w; exact fits_cons ..
      · funext p; exact ihc ..
  | join4 a b c d iha ihb ihc ihd =>
    conv => lhs; unfold format
    simp only [iha, den]
    congr 1
    · funext w; rw [fits_cons, cont_seq _ _ (fits_bounded limit q)]; congr 1; funext w
      rw [fits_cons, cont_seq _ _ (fits_bounded limit q)]; congr 1; funext w; exact fits_cons ..
    · funext p; rw [ihb]; congr 1
      · funext w; rw [fits_cons, cont_seq _ _ (fits_bounded limit q)]; congr 1; funext w; exact fits_cons ..
      · funext p; rw [ihc]; congr 1
        · funext w; exact fits_cons ..
        · funext p; exact ihd ..
  | group d ih =>
    conv => lhs; unfold format
    simp only [den, ih, fits_one]
  | nest n nm c d ih => conv => lhs; unfold format
                        simp only [den, ih]
  | forceBroken d ih => conv => lhs; unfold format
                        simp only [den, ih]
  | nextBreakFits d e ih => conv => lhs; unfold format
                            simp only [den, ih]
  | _ => conv => lhs; unfold format
         rfl

theorem print_den (limit : Int) (d : Doc) :
    print limit d = den limit d 0 .unbroken (fun w => decide (w ≤ limit)) (fun _ => []) ⟨0, 0⟩ := by
  rw [print, format_den]
  congr 1
  · funext w; exact fits_nil limit w
  · funext p; unfold format; rfl

/-! ### Printing alike -/

/-- The same for `fits` and for `format`, whatever follows. -/
def SemEq (a b : Doc) : Prop :=
  (∀ m, meas m a = meas m b) ∧
  ∀ limit i m kf k p, Bounded limit kf → den limit a i m kf k p = den limit b i m kf k p

theorem SemEq.fill {a b : Doc} (h : SemEq a b) (c : Ctx) : SemEq (c.fill a) (c.fill b) := by
  induction c with
  | hole => exact h
  | joinL c _ ih | join3A c _ _ ih | join4A c _ _ _ ih =>
    refine ⟨fun m => by simp only [Ctx.fill, meas, ih.1], fun limit i m kf k p hk => ?_⟩
    simp only [Ctx.fill, den]
    exact ih.2 _ _ _ _ _ _ (cont_bounded _ _ hk _)
  | joinR x c ih =>
    refine ⟨fun m => by simp only [Ctx.fill, meas, ih.1], fun limit i m kf k p hk => ?_⟩
    simp only [Ctx.fill, den, ih.1, ih.2 _ _ _ _ _ _ hk]
  | join3B x c y ih =>
    refine ⟨fun m => by simp only [Ctx.fill, meas, ih.1], fun limit i m kf k p hk => ?_⟩
    simp only [Ctx.fill, den, ih.1, ih.2 _ _ _ _ _ _ (cont_bounded _ _ hk _)]
  | join3C x y c ih =>
    refine ⟨fun m => by simp only [Ctx.fill, meas, ih.1], fun limit i m kf k p hk => ?_⟩
    simp only [Ctx.fill, den, ih.1, ih.2 _ _ _ _ _ _ hk]
  | join4B x c y z ih =>
    refine ⟨fun m => by simp only [Ctx.fill, meas, ih.1], fun limit i m kf k p hk => ?_⟩
    simp only [Ctx.fill, den, ih.1, ih.2 _ _ _ _ _ _ (cont_bounded _ _ hk _)]
  | join4C x y c z ih =>
    refine ⟨fun m => by simp only [Ctx.fill, meas, ih.1], fun limit i m kf k p hk => ?_⟩
    simp only [Ctx.fill, den, ih.1, ih.2 _ _ _ _ _ _ (cont_bounded _ _ hk _)]
  | join4D x y z c ih =>
    refine ⟨fun m => by simp only [Ctx.fill, meas, ih.1], fun limit i m kf k p hk => ?_⟩
    simp only [Ctx.fill, den, ih.1, ih.2 _ _ _ _ _ _ hk]
  | nest n nm kc c ih | force c ih | next c e ih =>
    refine ⟨fun m => by simp only [Ctx.fill, meas, ih.1], fun limit i m kf k p hk => ?_⟩
    simp only [Ctx.fill, den]
    exact ih.2 _ _ _ _ _ _ hk
  | group c ih =>
    refine ⟨fun m => by simp only [Ctx.fill, meas, ih.1], fun limit i m kf k p hk => ?_⟩
    simp only [Ctx.fill, den, ih.1, ih.2 _ _ _ _ _ _ hk]

theorem SemEq.alike {a b : Doc} (h : SemEq a b) : PrintAlike a b := by
  intro c limit
  rw [print_den, print_den]
  exact (h.fill c).2 _ _ _ _ _ _ (fun w hw => by simp; omega)

theorem SemEq.refl (a : Doc) : SemEq a a := ⟨fun _ => rfl, fun _ _ _ _ _ _ _ => rfl⟩
theorem SemEq.symm {a b : Doc} (h : SemEq a b) : SemEq b a :=
  ⟨fun m => (h.1 m).symm, fun l i m kf k p hk => (h.2 l i m kf k p hk).symm⟩
theorem SemEq.trans {a b c : Doc} (h : SemEq a b) (h' : SemEq b c) : SemEq a c :=
  ⟨fun m => (h.1 m).trans (h'.1 m), fun l i m kf k p hk => (h.2 l i m kf k p hk).trans (h'.2 l i m kf k p hk)⟩
theorem SemEq.join {a b a' b' : Doc} (h : SemEq a a') (h' : SemEq b b') : SemEq (.join a b) (.join a' b') :=
  (h.fill (.joinL .hole b)).trans (h'.fill (.joinR a' .hole))

theorem seq_assoc (a b c : Meas) : (a.seq b).seq c = a.seq (b.seq c) := by
  cases a <;> cases b <;> cases c <;> simp [Meas.seq, Nat.add_assoc]

theorem cont_zero (limit : Int) (kf : Int → Bool) : (fun w => (Meas.runs 0).cont limit kf w) = kf := by
  funext w; simp [Meas.cont]

theorem join_empty (a : Doc) : SemEq (.join a .empty) a := by
  refine ⟨fun m => ?_, fun limit i m kf k p hk => ?_⟩
  · simp only [meas]; cases meas m a <;> simp [Meas.seq]
  · simp only [den, meas, cont_zero]

theorem empty_join (a : Doc) : SemEq (.join .empty a) a := by
  refine ⟨fun m => ?_, fun limit i m kf k p hk => ?_⟩
  · simp only [meas]; cases meas m a <;> simp [Meas.seq]
  · simp only [den]

theorem join3_join (a b c : Doc) : SemEq (.join3 a b c) (.join a (.join b c)) :=
  ⟨fun m => by simp only [meas], fun limit i m kf k p hk => by simp only [den, meas]⟩

theorem join4_join (a b c d : Doc) : SemEq (.join4 a b c d) (.join a (.join b (.join c d))) :=
  ⟨fun m => by simp only [meas], fun limit i m kf k p hk => by simp only [den, meas]⟩

theorem join_assoc (a b c : Doc) : SemEq (.join (.join a b) c) (.join a (.join b c)) := by
  refine ⟨fun m => by simp only [meas, seq_assoc], fun limit i m kf k p hk => ?_⟩
  simp only [den, meas]
  congr 1
  funext w
  exact (cont_seq _ _ hk _ _ _).symm

theorem join3_left (a b c : Doc) : SemEq (.join3 a b c) (.join (.join a b) c) :=
  (join3_join a b c).trans (join_assoc a b c).symm

theorem join4_left (a b c d : Doc) : SemEq (.join4 a b c d) (.join (.join3 a b c) d) := by
  refine (join4_join a b c d).trans ?_
  refine SemEq.trans ?_ ((join3_join a b c).symm.fill (.joinL .hole d))
  refine SemEq.trans ?_ (join_assoc a (.join b c) d).symm
  exact ((join_assoc b c d).symm).fill (.joinR a .hole)

theorem append_join (a b : Doc) : SemEq (a.append b) (.join a b) := by
  unfold Doc.append
  split
  · exact (join_empty a).symm
  · split
    · exact (empty_join _).symm
    · exact join3_left _ _ _
    · exact join4_left _ _ _ _
    · exact .refl _

theorem grouped_group (d : Doc) : SemEq d.grouped (.group d) := by
  unfold Doc.grouped
  split
  · refine ⟨fun m => by simp only [meas]; cases m <;> rfl, fun limit i m kf k p hk => ?_⟩
    simp only [den, meas, groupMode]
    split
    · rename_i h; simp
    · rename_i h; simp
  all_goals first
    | exact .refl _
    | exact ⟨fun m => by cases m <;> rfl, fun limit i m kf k p hk => by simp only [den]; split <;> rfl⟩

theorem den_noBreaks (d : Doc) (h : NoBreaks d) (limit : Int) (i j : Int) (m m' : Mode) (kf kf' : Int → Bool)
    (k : Pos → List Ev) (p : Pos) : den limit d i m kf k p = den limit d j m' kf' k p := by
  induction d generalizing i j m m' kf kf' k p with
  | line | brk => exact h.elim
  | join a b iha ihb =>
    simp only [den]
    rw [iha h.1 i j m m' _ (fun w => (meas m' b).cont limit kf' w)]
    congr 1; funext p; exact ihb h.2 ..
  | join3 a b c iha ihb ihc =>
    simp only [den]
    rw [iha h.1 i j m m' _ (fun w => ((meas m' b).seq (meas m' c)).cont limit kf' w)]
    congr 1; funext p
    rw [ihb h.2.1 i j m m' _ (fun w => (meas m' c).cont limit kf' w)]
    congr 1; funext p; exact ihc h.2.2 ..
  | join4 a b c d iha ihb ihc ihd =>
    simp only [den]
    rw [iha h.1 i j m m' _ (fun w => ((meas m' b).seq ((meas m' c).seq (meas m' d))).cont limit kf' w)]
    congr 1; funext p
    rw [ihb h.2.1 i j m m' _ (fun w => ((meas m' c).seq (meas m' d)).cont limit kf' w)]
    congr 1; funext p
    rw [ihc h.2.2.1 i j m m' _ (fun w => (meas m' d).cont limit kf' w)]
    congr 1; funext p; exact ihd h.2.2.2 ..
  | group d ih =>
    simp only [den]
    split <;> exact ih h ..
  | nest n nm c d ih | forceBroken d ih | nextBreakFits d e ih => simp only [den]; exact ih h ..
  | _ => rfl

theorem meas_noBreaks (d : Doc) (h : NoBreaks d) : meas .broken d = meas .unbroken d := by
  induction d with
  | line | brk => exact h.elim
  | join a b iha ihb => simp only [meas, iha h.1, ihb h.2]
  | join3 a b c iha ihb ihc => simp only [meas, iha h.1, ihb h.2.1, ihc h.2.2]
  | join4 a b c d iha ihb ihc ihd => simp only [meas, iha h.1, ihb h.2.1, ihc h.2.2.1, ihd h.2.2.2]
  | nest n nm c d ih => simp only [meas, ih h]
  | nextBreakFits d e ih => cases e <;> simp only [meas, nextMode]
  | _ => simp [meas, groupMode]

theorem nest_noBreaks (d : Doc) (h : NoBreaks d) (n : Int) (nm : NestMode) (c : NestCondition) :
    SemEq (.nest n nm c d) d :=
  ⟨fun m => by simp only [meas], fun limit i m kf k p _ => by simp only [den]; exact den_noBreaks d h ..⟩

theorem group_noBreaks (d : Doc) (h : NoBreaks d) : SemEq (.group d) d := by
  refine ⟨fun m => ?_, fun limit i m kf k p _ => ?_⟩
  · cases m <;> simp [meas, groupMode, meas_noBreaks d h]
  · simp only [den]
    split <;> exact den_noBreaks d h ..

end Verif.Pretty
