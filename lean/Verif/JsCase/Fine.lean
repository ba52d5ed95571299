import Verif.JsCase.Clear
import Verif.JsCase.Split

/-!
# Compiled decision trees make sense

Lemmas: the trees that the compiler makes of branches are `Proper`.
-/

set_option linter.unusedSectionVars false

namespace Verif.JsCase

open Verif.Case

variable {B : BitSys}

/-! ### One check -/

theorem haveTys_length {ds : Decls} : ∀ {xs : List (Val B.Bits)} {ts : List Ty},
    Val.haveTys ds xs ts → xs.length = ts.length
  | [], [], _ => rfl
  | [], _ :: _, h => by simp [Val.haveTys] at h
  | _ :: _, [], h => by simp [Val.haveTys] at h
  | x :: xs, t :: ts, h => by
    simp only [Val.haveTys] at h
    simp [haveTys_length h.2]

theorem fits_of_holds {ds : Decls} {t : Ty} {x : Val B.Bits} {c : Check B} (hc : c.hasTy ds t)
    (hx : x.hasTy ds t) (hh : c.holds x = true) : Fits x c := by
  cases c <;> try trivial
  case strPrefix s rest =>
    cases x <;> simp only [Check.holds, Bool.false_eq_true, decide_eq_true_eq] at hh
    exact ⟨_, rfl, hh⟩
  case tuple vs =>
    cases x <;> simp only [Check.holds, Bool.false_eq_true, decide_eq_true_eq] at hh
    exact ⟨_, rfl, hh.symm⟩
  case variant m i vs =>
    cases t <;> simp only [Check.hasTy] at hc
    cases x <;> simp only [Check.holds, Bool.false_eq_true, decide_eq_true_eq] at hh
    subst hh
    simp only [Val.hasTy] at hx
    rcases hx with hx | ⟨-, fields, hf, hx⟩
    · rw [hx] at hc; simp at hc
    · rw [hc, Option.some.injEq] at hf
      subst hf
      exact ⟨_, _, rfl, by rw [haveTys_length hx, List.length_map]⟩
  case cons a b =>
    cases x <;> simp only [Check.holds, Bool.false_eq_true] at hh
    exact ⟨_, _, rfl⟩

theorem speaks_of_ty {ds : Decls} {ctx : Ctx} {t : Ty} {x : Val B.Bits} {c : Check B}
    (hb : BoolsBinary ds ctx) (hc : c.hasTy ds t) (hx : x.hasTy ds t) (ht : ∀ ts, t ≠ .tuple ts) :
    Speaks ctx t x c := by
  cases c <;> try trivial
  case strPrefix s rest =>
    cases t <;> simp only [Check.hasTy] at hc
    cases x <;> simp only [Val.hasTy] at hx
    exact ⟨_, rfl⟩
  case tuple vs =>
    cases t <;> simp only [Check.hasTy] at hc
    exact ht _ rfl
  case bits u =>
    cases t <;> simp only [Check.hasTy] at hc
    cases x <;> simp only [Val.hasTy] at hx
    exact ⟨_, rfl⟩
  case variant m i vs =>
    intro hbool
    obtain ⟨n, args, inf, rfl, hcs⟩ := hb t hbool
    simp only [Check.hasTy, hcs] at hc
    have hi : i = 0 ∨ i = 1 := by
      obtain ⟨h1, -⟩ := List.getElem?_eq_some_iff.1 hc
      simp only [List.length_cons, List.length_nil] at h1
      omega
    refine ⟨hi, ?_⟩
    cases x <;> simp only [Val.hasTy, hcs, reduceCtorEq, false_or] at hx
    rename_i j xs
    obtain ⟨-, fields, hf, hx⟩ := hx
    have hf' := hf
    obtain ⟨h1, -⟩ := List.getElem?_eq_some_iff.1 hf'
    simp only [List.length_cons, List.length_nil] at h1
    have hj : j = 0 ∨ j = 1 := by omega
    rcases hj with rfl | rfl <;>
      (simp at hf; subst hf; cases xs <;> simp [Val.haveTys] at hx ⊢)

/-- If two checks succeed then they are of the same kind, unless they are about strings or bit
arrays. -/
theorem kinds_of_holds {ds : Decls} {t : Ty} {x : Val B.Bits} {c d : Check B} (hc : c.hasTy ds t)
    (hd : d.hasTy ds t) (h1 : c.holds x = true) (h2 : d.holds x = true) (hs : t ≠ .string)
    (hb : t ≠ .bitArray) : c.kind = d.kind := by
  cases t <;> try contradiction
  all_goals
    cases c <;> simp only [Check.hasTy] at hc <;> cases d <;> simp only [Check.hasTy] at hd <;>
      cases x <;> simp only [Check.holds, Bool.false_eq_true, decide_eq_true_eq] at h1 h2 <;>
      simp only [Check.kind] <;> simp_all

/-! ### Lists of branches -/

/-- What the compiler needs to know of branches. -/
structure Prep (ds : Decls) (sk : Char → Nat) (loud : Bool) (n : Nat) (env : Env B)
    (bs : List (Branch B)) : Prop where
  good : ∀ b ∈ bs, Good ds n sk env b
  later : bs.Pairwise Later
  read : ∀ b ∈ bs, Readable env b
  loud : ∀ b ∈ bs, Loud loud env b

theorem Prep.mono {ds : Decls} {sk : Char → Nat} {loud : Bool} {n m : Nat} {env : Env B}
    {bs : List (Branch B)} (h : Prep ds sk loud n env bs) (hm : n ≤ m) :
    Prep ds sk loud m env bs :=
  ⟨fun b hb => ⟨(h.good b hb).ok.mono hm, (h.good b hb).tidy, (h.good b hb).nodup,
    (h.good b hb).body⟩, h.later, h.read, h.loud⟩

/-- Compiling gives a tree that makes sense. -/
def Fine (ds : Decls) (sk : Char → Nat) (ctx : Ctx) (guards : Guards B)
    (rec : Case.St → List (Branch B) → Option (Decision B × Case.St)) : Prop :=
  ∀ st bs r env, rec st bs = some r → Prep ds sk ctx.letAssert st.next env bs →
    (∀ inner, Proper ctx guards inner env r.1) ∧ (ctx.letAssert = true → ¬ Quiet r.1)

section
variable {ds : Decls} {sk : Char → Nat} {ctx : Ctx} {guards : Guards B} {env : Env B} {v : Var}
  {rec : Case.St → List (Branch B) → Option (Decision B × Case.St)}

theorem compileChoices_fine (hg : Grows rec) (hrec : RunsFirst ds sk guards rec)
    (hf : Fine ds sk ctx guards rec) {n : Nat} (hv : (env v).hasTy ds v.ty) :
    ∀ {chs : List (Check B × List (Branch B))} {st : Case.St} {r : Choices B × Case.St},
    compileChoices rec st chs = some r → n ≤ st.next → (∀ ch ∈ chs, ch.1.hasTy ds v.ty) →
    (∀ ch ∈ chs, ch.1.holds (env v) = true →
      Prep ds sk ctx.letAssert n (env.set (ch.1.binds (env v))) ch.2) →
    checksOf r.1 = chs.map Prod.fst ∧ ProperChoices ctx guards env (env v) r.1 ∧
    List.Forall₂ (fun ch p => p.1 = ch.1 ∧ (ch.1.holds (env v) = true →
      p.2.eval guards (env.set (ch.1.binds (env v))) =
        pick guards (env.set (ch.1.binds (env v))) ch.2)) chs (choiceList r.1)
  | [], st, r, h, _, _, _ => by
    simp only [compileChoices, Option.some.injEq] at h
    subst h
    exact ⟨rfl, by simp only [ProperChoices], by simp only [choiceList]; exact .nil⟩
  | ch :: chs, st, r, h, hn, hty, hp => by
    simp only [compileChoices, Option.bind_eq_some_iff, Option.some.injEq] at h
    obtain ⟨a, ha, s, hs, rfl⟩ := h
    have hle := (hg _ _ _ ha).next
    obtain ⟨k1, k2, k3⟩ := compileChoices_fine hg hrec hf (n := n) hv hs (Nat.le_trans hn hle)
      (fun ch' h' => hty ch' (by simp [h'])) fun ch' h' => hp ch' (by simp [h'])
    refine ⟨by simp [checksOf, k1], ?_, ?_⟩
    · simp only [ProperChoices]
      refine ⟨fun hh => ⟨fits_of_holds (hty ch (by simp)) hv hh, ?_⟩, k2⟩
      exact (hf _ _ _ _ ha ((hp ch (by simp) hh).mono hn)).1 true
    · simp only [choiceList]
      refine .cons ⟨rfl, fun hh => ?_⟩ k3
      have hpr := (hp ch (by simp) hh).mono hn
      exact hrec _ _ _ _ ha hpr.good (hpr.later.imp Later.nc)

theorem switch_proper {C : Choices B} {d : Decision B} {f : Fallback B}
    (h1 : ∀ k ∈ checksOf C, Speaks ctx v.ty (env v) k) (h2 : Unanimous guards env (env v) d C)
    (h3 : ProperChoices ctx guards env (env v) C)
    (h4 : (∀ k ∈ checksOf C, k.holds (env v) = false) → FallbackFits (env v) f ∧
      (∀ inner, Proper ctx guards inner (env.set (f.binds (env v))) d) ∧
      (ctx.letAssert = true → ¬ Quiet d)) :
    (∀ inner, Proper ctx guards inner env (.switch v C d f)) ∧
      (ctx.letAssert = true → ¬ Quiet (.switch v C d f)) := by
  cases C with
  | nil =>
    obtain ⟨g1, g2, g3⟩ := h4 (by simp [checksOf])
    exact ⟨fun inner => by simp only [Proper]; exact ⟨g1, g2 inner⟩,
      fun hl => by simp only [Quiet]; exact g3 hl⟩
  | cons c e cs =>
    refine ⟨fun inner => ?_, fun _ => by simp [Quiet]⟩
    simp only [Proper]
    refine ⟨h1, h2, h3, fun hn => ?_⟩
    obtain ⟨g1, g2, g3⟩ := h4 hn
    exact ⟨g1, fun hl _ => g3 hl, g2 false⟩

theorem compileSwitch_fine (hg : Grows rec) (hrec : RunsFirst ds sk guards rec)
    (hf : Fine ds sk ctx guards rec) {n : Nat} (hv : (env v).hasTy ds v.ty)
    (hb : BoolsBinary ds ctx)
    {chs : List (Check B × List (Branch B))} {fb : List (Branch B)} {fc : Fallback B}
    {st : Case.St} {r : Decision B × Case.St} (h : compileSwitch rec st v chs fb fc = some r)
    (hn : n ≤ st.next) (hty : ∀ ch ∈ chs, ch.1.hasTy ds v.ty)
    (hp : ∀ ch ∈ chs, ch.1.holds (env v) = true →
      Prep ds sk ctx.letAssert n (env.set (ch.1.binds (env v))) ch.2)
    (ht : ∀ ts, v.ty = .tuple ts → chs = [])
    (hu : chs.Pairwise fun a b => a.1.holds (env v) = true → b.1.holds (env v) = true →
      fc.binds (env v) = [] ∧ Prep ds sk ctx.letAssert n env fb ∧
      (pick guards (env.set (a.1.binds (env v))) a.2 = pick guards env fb →
        pick guards (env.set (b.1.binds (env v))) b.2 = pick guards env fb))
    (hfb : (∀ ch ∈ chs, ch.1.holds (env v) = false) → FallbackFits (env v) fc ∧
      Prep ds sk ctx.letAssert n (env.set (fc.binds (env v))) fb) :
    (∀ inner, Proper ctx guards inner env r.1) ∧ (ctx.letAssert = true → ¬ Quiet r.1) := by
  simp only [compileSwitch, Option.bind_eq_some_iff, Option.some.injEq] at h
  obtain ⟨a, ha, s, hs, rfl⟩ := h
  obtain ⟨k1, k2, k3⟩ := compileChoices_fine hg hrec hf hv ha hn hty hp
  have hn' : n ≤ a.2.next := Nat.le_trans hn (compileChoices_le hg ha).next
  refine switch_proper ?_ ?_ k2 ?_
  · intro k hk
    rw [k1, List.mem_map] at hk
    obtain ⟨ch, hch, rfl⟩ := hk
    refine speaks_of_ty hb (hty ch hch) hv ?_
    intro ts hts
    rw [ht ts hts] at hch
    simp at hch
  · refine forall₂_pairwise' ?_ k3 hu
    rintro c ⟨_, dp⟩ d ⟨_, dq⟩ ⟨rfl, e1⟩ ⟨rfl, e2⟩ hcd h1 h2
    obtain ⟨g1, g2, g3⟩ := hcd h1 h2
    have g2' := g2.mono hn'
    simp only
    rw [e1 h1, e2 h2, hrec _ _ _ _ hs g2'.good (g2'.later.imp Later.nc)]
    exact g3
  · intro hall
    obtain ⟨g1, g2⟩ := hfb (by
      intro ch hch
      exact hall ch.1 (by rw [k1]; exact List.mem_map_of_mem hch))
    obtain ⟨g3, g4⟩ := hf _ _ _ _ hs (g2.mono hn')
    exact ⟨g1, g3, g4⟩

/-! ### What a splitter gives -/

/-- What is known of the splitter when all branches have been added. -/
structure Facts (ds : Decls) (sk : Char → Nat) (loud : Bool) (guards : Guards B) (n : Nat)
    (env : Env B) (v : Var) (sp : Splitter B) : Prop where
  ty : ∀ ch ∈ sp.choices, ch.1.hasTy ds v.ty
  choice : ∀ ch ∈ sp.choices, ch.1.holds (env v) = true →
    Prep ds sk loud n (env.set (ch.1.binds (env v))) ch.2
  fallback : Prep ds sk loud n env sp.fallback
  agree : sp.choices.Pairwise fun a b => a.1.holds (env v) = true → b.1.holds (env v) = true →
    v.ty = .string ∧ (pick guards (env.set (a.1.binds (env v))) a.2 = pick guards env sp.fallback →
      pick guards (env.set (b.1.binds (env v))) b.2 = pick guards env sp.fallback)
  cover : (branchMode ds v.ty).isInfinite = false → sp.choices ≠ [] → Cover (env v) sp.choices
  tuple : ∀ ts, v.ty = .tuple ts → sp.choices.length ≤ 1

theorem pick_congr' {l : List (Branch B)} {env' : Env B} (h : ∀ b ∈ l, b.run env' = b.run env) :
    pick guards env' l = pick guards env l := by
  induction l with
  | nil => rfl
  | cons b l ih =>
    have hc : b :: l = [b] ++ l := rfl
    rw [hc, pick_append, pick_append, pick_one, pick_one, h b (by simp),
      ih fun b hb => h b (by simp [hb])]

theorem SpAgree.unanimous {n0 n : Nat} {seen : List (Branch B)} {sp : Splitter B}
    (hw : SpWf ds n0 n env v sp) (h : SpAgree guards env v seen sp) :
    sp.choices.Pairwise fun a b => a.1.holds (env v) = true → b.1.holds (env v) = true →
    v.ty = .string ∧ (pick guards (env.set (a.1.binds (env v))) a.2 = pick guards env sp.fallback →
      pick guards (env.set (b.1.binds (env v))) b.2 = pick guards env sp.fallback) := by
  by_cases hs : v.ty = .string
  · have hall : ∀ ch ∈ sp.choices, CheckOk ds n0 n v.ty ch.1 := hw.checks
    have hag := h.agree hs
    rw [List.pairwise_iff_forall_sublist] at hag ⊢
    intro a b hab h1 h2
    refine ⟨hs, fun he => ?_⟩
    obtain ⟨m, f0, f1, b1, ⟨o, ho, hlt⟩, e1, hf1, e2, -⟩ := hag hab h1 h2
    have hb := hall b (hab.subset (by simp))
    have hold : pick guards (env.set (b.1.binds (env v))) f0 = pick guards env f0 := by
      refine pick_congr' fun f hf => ?_
      exact Branch.run_old (hw.fallback f (by rw [e1]; simp [hf]))
        fun w hw' => env_set_old hb env _ hw'
    rw [ho] at he
    have hf0 : pick guards env f0 = some o := by
      rw [e1, pick_append] at he
      cases h0 : pick guards env f0 with
      | some q => rw [h0] at he; simpa using he.symm
      | none =>
        rw [h0] at he
        simp only [Option.none_or] at he
        obtain ⟨f, hf, ho'⟩ := pick_mem he.symm
        have := hf1 f hf
        omega
    rw [← he, e2, pick_append, hold, hf0]
    rfl
  · by_cases hb : v.ty = .bitArray
    · have hl := h.bits hb
      cases hc : sp.choices with
      | nil => exact .nil
      | cons c cs =>
        rw [hc] at hl
        simp only [List.length_cons] at hl
        have : cs = [] := by
          cases cs with
          | nil => rfl
          | cons => simp only [List.length_cons] at hl; omega
        subst this
        simp
    · have hk := h.kinds hs hb
      have hk' : sp.choices.Pairwise fun a b => a.1.kind ≠ b.1.kind := List.pairwise_map.1 hk
      rw [List.pairwise_iff_forall_sublist] at hk' ⊢
      intro a b hab h1 h2
      exact absurd (kinds_of_holds (hw.checks a (hab.subset (by simp))).ty
        (hw.checks b (hab.subset (by simp))).ty h1 h2 hs hb) (hk' hab)

theorem SpAgree.tuples {n0 n : Nat} {seen : List (Branch B)} {sp : Splitter B} {ts : List Ty}
    (hw : SpWf ds n0 n env v sp) (hag : SpAgree guards env v seen sp) (hts : v.ty = .tuple ts) :
    sp.choices.length ≤ 1 := by
  have hkd := hag.kinds (by rw [hts]; simp) (by rw [hts]; simp)
  have hall : ∀ k ∈ sp.choices.map (fun ch => ch.1.kind), k = some (.tuple ts.length) := by
    intro k hk
    obtain ⟨ch, hch, rfl⟩ := List.mem_map.1 hk
    have := (hw.checks ch hch).ty
    rw [hts] at this
    revert this
    cases ch.1 <;> simp only [Check.hasTy, Check.kind, false_implies, Option.some.injEq,
      Kind.tuple.injEq]
    rintro rfl
    simp
  have hlen : (sp.choices.map (fun ch => ch.1.kind)).length ≤ 1 := by
    revert hkd hall
    generalize sp.choices.map (fun ch => ch.1.kind) = l
    intro h1 h2
    match l, h1, h2 with
    | [], _, _ => simp
    | [_], _, _ => simp
    | a :: b :: l, h1, h2 =>
      exfalso
      have e1 := h2 a (by simp)
      have e2 := h2 b (by simp)
      rw [List.nodup_cons] at h1
      exact h1.1 (by rw [e1, ← e2]; simp)
  simpa using hlen

theorem split_facts (hsnd : B.Sound) {st : Case.St} {first : Branch B} {rest : List (Branch B)}
    {kc : List (Check B) × Nat} {stm : Case.St} {sp : Splitter B} {loud : Bool}
    (hkc : knownChecks st.next (branchMode ds v.ty) = some kc)
    (hsp : splitBranches (branchMode ds v.ty) v { st with next := kc.2 }
      (Splitter.fromChecks kc.1) (first :: rest) = some (stm, sp)) {p : Pat B}
    (hp : (v, p) ∈ first.checks) (hprep : Prep ds sk loud st.next env (first :: rest))
    (hst : ∀ b ∈ first :: rest, b.stuck) : Facts ds sk loud guards stm.next env v sp := by
  have hgood := hprep.good
  have hpop : popCheck v first.checks ≠ none := fun h0 => popCheck_none h0 _ hp rfl
  have hv := (hgood first (by simp)).ok.val _ hp
  obtain ⟨hn, hkok⟩ := knownChecks_ok hkc
  have hmem : ∀ ch ∈ (Splitter.fromChecks kc.1).choices, ∃ c ∈ kc.1, ch = (c, []) := by
    intro ch hch
    simp only [Splitter.fromChecks, List.mem_map] at hch
    obtain ⟨c, hc, rfl⟩ := hch
    exact ⟨c, hc, rfl⟩
  have hplain : ∀ ch ∈ (Splitter.fromChecks kc.1).choices, ch.1.prefixText = none := by
    intro ch hch
    obtain ⟨c, hc, rfl⟩ := hmem ch hch
    exact (knownChecks_plain hkc c hc).1
  have hw0 : SpWf ds st.next kc.2 env v (Splitter.fromChecks kc.1) := by
    refine ⟨hn, ?_, ?_, by simp [Splitter.fromChecks]⟩
    · intro ch hch
      obtain ⟨c, hc, rfl⟩ := hmem ch hch
      exact hkok c hc
    · intro ch hch _ b hb
      obtain ⟨c, hc, rfl⟩ := hmem ch hch
      simp at hb
  have hd0 : SpSound env v [] (Splitter.fromChecks kc.1) := by
    refine ⟨?_, by simp [Splitter.fromChecks]⟩
    intro ch hch _ b hb
    obtain ⟨c, hc, rfl⟩ := hmem ch hch
    simp at hb
  have hx0 : SpExact guards env v [] (Splitter.fromChecks kc.1) := by
    refine ⟨fun _ => rfl, ?_, ?_, ?_, ?_, ?_, by simp [Splitter.fromChecks]⟩
    · intro pre c l suf hs _ _
      obtain ⟨c', hc, he⟩ := hmem (c, l) (by rw [hs]; simp)
      simp only [Prod.mk.injEq] at he
      rw [he.2]; rfl
    · intro ch hch t ht
      obtain ⟨c, hc, rfl⟩ := hmem ch hch
      exact absurd ht ((knownChecks_plain hkc c hc).2 t)
    · intro ch hch t r ht
      have := hplain ch hch
      rw [ht] at this
      simp [Check.prefixText] at this
    · rw [List.pairwise_iff_forall_sublist]
      intro a b hab s t hs _
      rw [hplain a (hab.subset (by simp))] at hs
      simp at hs
    · intro ch hch _ b hb
      obtain ⟨c, hc, rfl⟩ := hmem ch hch
      simp at hb
  have hr0 : SpDer Later v [] (Splitter.fromChecks kc.1) := by
    refine ⟨?_, ?_, by simp [Splitter.fromChecks], by simp [Splitter.fromChecks]⟩
    · intro ch hch b hb
      obtain ⟨c, hc, rfl⟩ := hmem ch hch
      simp at hb
    · intro ch hch
      obtain ⟨c, hc, rfl⟩ := hmem ch hch
      simp
  have hcov : (branchMode ds v.ty).isInfinite = false →
      Cover (env v) (Splitter.fromChecks (B := B) kc.1).choices := by
    intro hi
    refine knownChecks_cover hkc hi ?_ hv
    intro hnil
    exact knownChecks_nil hkc hi hnil ((hgood first (by simp)).ok.pat _ hp)
      (hst first (by simp) _ hp)
  obtain ⟨ha0, hl0⟩ := spAgree_first hkc guards env loud
  have hready : ∀ b ∈ ([] : List (Branch B)) ++ first :: rest, Ready ds st.next sk env b :=
    fun b hb => ⟨(hgood b (by simpa using hb)).ok, hst b (by simpa using hb),
      (hgood b (by simpa using hb)).tidy, (hgood b (by simpa using hb)).nodup⟩
  have hlater : (([] : List (Branch B)) ++ first :: rest).Pairwise Later := by
    simpa using hprep.later
  obtain ⟨hex, hder⟩ := splitBranches_exact (guards := guards) (sk := sk) (seen := []) hsnd
    Later.lasting (fun _ _ h => h.nc) hsp hready hlater hw0 hd0 hx0 hr0 hcov
    (fun _ _ => ⟨rfl, by simpa using hpop⟩)
  obtain ⟨hag, hlo⟩ := splitBranches_agree (guards := guards) (sk := sk) (seen := []) hsnd hsp
    hready hlater hprep.read hprep.loud hw0 hd0 hx0 hr0 ha0 hl0 hcov
    (fun _ _ => ⟨rfl, by simpa using hpop⟩)
  obtain ⟨hk, -⟩ := splitBranches_keeps (tidy_kept ds sk) hsp
    (fun b hb => ⟨(hgood b hb).tidy, hst b hb⟩) (by
      refine ⟨?_, ?_, by simp [Splitter.fromChecks]⟩
      · intro ch hch
        obtain ⟨c, hc, rfl⟩ := hmem ch hch
        exact (hkok c hc).ty
      · intro ch hch b hb
        obtain ⟨c, hc, rfl⟩ := hmem ch hch
        simp at hb)
  obtain ⟨hw, -, hcv⟩ := splitBranches_inv hsnd hsp
    (fun b hb => ⟨(hgood b hb).ok, hst b hb⟩) hw0 hd0
  simp only [List.nil_append] at hex hder hag
  have hbody : ∀ {b b' : Branch B}, b ∈ first :: rest → Tag b' b → b'.body.clause = b'.clause := by
    intro b b' hb ht
    rw [ht.clause, ht.body]
    exact (hgood b hb).body
  refine ⟨fun ch hch => (hw.checks ch hch).ty, ?_, ?_, hag.unanimous hw, fun hi _ => hcv hi (hcov hi),
    ?_⟩
  · intro ch hch hh
    refine ⟨?_, hder.pairs ch hch, hag.read ch hch hh, hlo.choice ch hch hh⟩
    intro b hb
    obtain ⟨e, he, hde⟩ := hder.choice ch hch b hb
    exact ⟨hw.choice ch hch hh b hb, hk.choice ch hch b hb, hex.cnodup ch hch hh b hb,
      hbody he hde.tag⟩
  · refine ⟨?_, hder.fpairs, hag.fread, hlo.fallback⟩
    intro b hb
    obtain ⟨e, he, hde⟩ := hder.fallback b hb
    exact ⟨(hw.fallback b hb).mono hw.le, hk.fallback b hb, hex.fnodup b hb, hbody he (hde .nil).tag⟩
  · exact fun ts hts => hag.tuples hw hts

/-- The same without branches. -/
theorem empty_facts {st : Case.St} {kc : List (Check B) × Nat} {stm : Case.St} {sp : Splitter B}
    {loud : Bool} (hv : (env v).hasTy ds v.ty)
    (hkc : knownChecks st.next (branchMode ds v.ty) = some kc)
    (hsp : splitBranches (branchMode ds v.ty) v { st with next := kc.2 }
      (Splitter.fromChecks kc.1) [] = some (stm, sp)) : Facts ds sk loud guards stm.next env v sp := by
  simp only [splitBranches, Option.some.injEq, Prod.mk.injEq] at hsp
  obtain ⟨rfl, rfl⟩ := hsp
  obtain ⟨hn, hkok⟩ := knownChecks_ok hkc
  obtain ⟨hag, -⟩ := spAgree_first hkc guards env loud
  have hnil : ∀ n (env : Env B), Prep ds sk loud n env [] := fun n env =>
    ⟨by simp, by simp, by simp, by simp⟩
  have hmem : ∀ ch ∈ (Splitter.fromChecks kc.1).choices, ∃ c ∈ kc.1, ch = (c, []) := by
    intro ch hch
    simp only [Splitter.fromChecks, List.mem_map] at hch
    obtain ⟨c, hc, rfl⟩ := hch
    exact ⟨c, hc, rfl⟩
  have hw : SpWf ds st.next kc.2 env v (Splitter.fromChecks kc.1) := by
    refine ⟨hn, ?_, ?_, by simp [Splitter.fromChecks]⟩
    · intro ch hch
      obtain ⟨c, hc, rfl⟩ := hmem ch hch
      exact hkok c hc
    · intro ch hch _ b hb
      obtain ⟨c, hc, rfl⟩ := hmem ch hch
      simp at hb
  refine ⟨fun ch hch => (hw.checks ch hch).ty, ?_, hnil _ _, hag.unanimous hw, ?_,
    fun ts hts => hag.tuples hw hts⟩
  · intro ch hch _
    obtain ⟨c, hc, rfl⟩ := hmem ch hch
    exact hnil _ _
  · intro hi hne
    refine knownChecks_cover hkc hi ?_ hv
    intro h0
    exact hne (by simp [Splitter.fromChecks, h0])

/-! ### Compiling -/

theorem splitAndCompile_fine (hg : Grows rec) (hrec : RunsFirst ds sk guards rec)
    (hf : Fine ds sk ctx guards rec) (hb : BoolsBinary ds ctx) {st : Case.St}
    {bs : List (Branch B)} {r : Decision B × Case.St} (h : splitAndCompile ds rec st v bs = some r)
    (hv : (env v).hasTy ds v.ty)
    (hfacts : ∀ kc stm sp, knownChecks st.next (branchMode ds v.ty) = some kc →
      splitBranches (branchMode ds v.ty) v { st with next := kc.2 } (Splitter.fromChecks kc.1) bs =
        some (stm, sp) → Facts ds sk ctx.letAssert guards stm.next env v sp) :
    (∀ inner, Proper ctx guards inner env r.1) ∧ (ctx.letAssert = true → ¬ Quiet r.1) := by
  simp only [splitAndCompile, Option.bind_eq_some_iff] at h
  obtain ⟨kc, hkc, ⟨stm, sp⟩, hsp, h⟩ := h
  have hfa : Facts ds sk ctx.letAssert guards stm.next env v sp :=
    hfacts kc stm sp hkc hsp
  simp only at h
  split at h
  · rename_i hi
    refine compileSwitch_fine hg hrec hf hv hb h (Nat.le_refl _) hfa.ty hfa.choice ?_ ?_ ?_
    · intro ts hts
      rw [hts] at hi
      simp [branchMode, Mode.isInfinite] at hi
    · refine hfa.agree.imp ?_
      intro a b hab h1 h2
      exact ⟨rfl, hfa.fallback, (hab h1 h2).2⟩
    · intro _
      simp only [FallbackFits, Fallback.binds, env_set_nil]
      exact ⟨trivial, hfa.fallback⟩
  · rename_i hi
    have hi : (branchMode ds v.ty).isInfinite = false := by simpa using hi
    have hns : v.ty ≠ .string := by
      intro hs
      rw [hs] at hi
      simp [branchMode, Mode.isInfinite] at hi
    have hvac : sp.choices.Pairwise fun a b => ¬ (a.1.holds (env v) = true ∧ b.1.holds (env v) = true) :=
      hfa.agree.imp fun hab => by
        rintro ⟨h1, h2⟩
        exact hns (hab h1 h2).1
    split at h
    · simp only [Option.some.injEq] at h
      subst h
      exact ⟨fun _ => by simp only [Proper], fun _ => by simp [Quiet]⟩
    · rename_i hne
      have hne : sp.choices ≠ [] := by simpa using hne
      have hcov := hfa.cover hi hne
      unfold exhaustiveSwitch at h
      split at h
      · rename_i hig
        refine compileSwitch_fine hg hrec hf hv hb h (Nat.le_refl _)
          (fun ch hch => hfa.ty ch (List.mem_filter.1 hch).1)
          (fun ch hch => hfa.choice ch (List.mem_filter.1 hch).1) ?_ ?_ ?_
        · intro ts hts
          exfalso
          simp only [List.any_eq_true] at hig
          obtain ⟨ch, hch, hig⟩ := hig
          have := hfa.ty ch hch
          rw [hts] at this
          revert this hig
          cases ch.1 <;> simp [Check.hasTy, Check.ignored]
        · refine List.Pairwise.sublist List.filter_sublist (hvac.imp ?_)
          intro a b hab h1 h2
          exact absurd ⟨h1, h2⟩ hab
        · intro _
          simp only [FallbackFits, Fallback.binds, env_set_nil]
          exact ⟨trivial, hfa.fallback⟩
      · split at h
        · simp at h
        · rename_i last hl
          have hd : sp.choices = sp.choices.dropLast ++ [last] :=
            (List.dropLast_append_getLast? last hl).symm
          have hm : last ∈ sp.choices := List.mem_of_getLast? hl
          refine compileSwitch_fine hg hrec hf hv hb h (Nat.le_refl _)
            (fun ch hch => hfa.ty ch (List.dropLast_subset _ hch))
            (fun ch hch => hfa.choice ch (List.dropLast_subset _ hch)) ?_ ?_ ?_
          · intro ts hts
            have := hfa.tuple ts hts
            rw [hd] at this
            simp only [List.length_append, List.length_cons, List.length_nil] at this
            exact List.length_eq_zero_iff.1 (by omega)
          · refine List.Pairwise.sublist (List.dropLast_sublist _) (hvac.imp ?_)
            intro a b hab h1 h2
            exact absurd ⟨h1, h2⟩ hab
          · intro hall
            have hh : last.1.holds (env v) = true := by
              obtain ⟨ch, hch, hh⟩ := hcov
              rw [hd] at hch
              simp only [List.mem_append, List.mem_singleton] at hch
              rcases hch with hch | rfl
              · rw [hall ch hch] at hh; simp at hh
              · exact hh
            exact ⟨fits_of_holds (hfa.ty last hm) hv hh, hfa.choice last hm hh⟩

theorem body_fits {n : Nat} {b : Branch B} (hg : Good ds n sk env b) (hr : Readable env b)
    (hc : b.checks = []) : BodyFits env b.body := by
  refine ⟨?_, hr.binds⟩
  have hrun : b.run env = some (b.body.values env) := by simp [Branch.run, hc, runChecks]
  have := hg.nodup _ hrun
  simpa [Body.values, Function.comp_def] using this

theorem compile_fine_step (hs : B.Sound) {fuel : Nat}
    (hrec : RunsFirst ds sk guards (compile (B := B) ds fuel))
    (ih : Fine ds sk ctx guards (compile (B := B) ds fuel)) (hb : BoolsBinary ds ctx)
    {st : Case.St} {bs : List (Branch B)} {r : Decision B × Case.St}
    (h : compile ds (fuel + 1) st bs = some r)
    (hprep : Prep ds sk ctx.letAssert st.next env (moveAll st.taken bs).1) :
    (∀ inner, Proper ctx guards inner env r.1) ∧ (ctx.letAssert = true → ¬ Quiet r.1) := by
  have hst : ∀ b' ∈ (moveAll st.taken bs).1, b'.stuck := by
    intro b' hb'
    obtain ⟨b, hb, t, rfl⟩ := moveAll_mem bs _ b' hb'
    exact moveBranch_stuck t b
  simp only [compile] at h
  split at h
  · simp only [Option.some.injEq] at h
    subst h
    exact ⟨fun _ => by simp only [Proper], fun _ => by simp [Quiet]⟩
  · rename_i first rest taken heq
    rw [heq] at hst hprep
    simp only at hst hprep
    have hnext : (Case.St.reached { st with taken := taken } (first.clause, first.alt)).next =
        st.next := by
      unfold Case.St.reached; split <;> rfl
    split at h
    · rename_i v hv
      obtain ⟨p, hp⟩ := findPivot_mem hv
      rw [← hnext] at hprep
      exact splitAndCompile_fine (compile_le ds fuel) hrec ih hb h
        ((hprep.good first (by simp)).ok.val _ hp)
        fun kc stm sp hkc hsp => split_facts hs hkc hsp hp hprep hst
    · rename_i hv
      have hnil := findPivot_none hv
      have hfit := body_fits (hprep.good first (by simp)) (hprep.read first (by simp)) hnil
      have hrun : first.run env = some (first.body.values env) := by
        simp [Branch.run, hnil, runChecks]
      split at h
      · simp only [Option.some.injEq] at h
        subst h
        refine ⟨fun _ => by simp only [Proper]; exact hfit, fun hl => ?_⟩
        simp only [Quiet]
        intro h0
        refine (hprep.loud first (by simp) hl).2 _ hrun ?_
        simp [Body.values, h0]
      · rename_i g hgd
        simp only [Option.bind_eq_some_iff, Option.some.injEq] at h
        obtain ⟨a, ha, rfl⟩ := h
        have hp : Prep ds sk ctx.letAssert
            (Case.St.reached { st with taken := taken } (first.clause, first.alt)).next env rest := by
          rw [hnext]
          exact ⟨fun b hb => hprep.good b (by simp [hb]), (List.pairwise_cons.1 hprep.later).2,
            fun b hb => hprep.read b (by simp [hb]), fun b hb => hprep.loud b (by simp [hb])⟩
        have hla : ctx.letAssert = false := by
          by_contra hl
          have := (hprep.loud first (by simp) (by simpa using hl)).1
          rw [hgd] at this
          simp at this
        refine ⟨fun _ => ?_, fun _ => by simp [Quiet]⟩
        simp only [Proper]
        exact ⟨hla, hfit, (ih _ _ _ _ ha hp).1 false⟩

theorem compile_fine (hs : B.Sound) (hb : BoolsBinary ds ctx) :
    ∀ fuel, Fine ds sk ctx guards (compile (B := B) ds fuel)
  | 0 => fun st bs r env h => by simp [compile] at h
  | fuel + 1 => fun st bs r env h hprep => by
    have ih := compile_fine hs hb fuel
    have hcells : branchesCells bs = [] := by
      simp only [branchesCells, checksCells, List.flatMap_eq_nil_iff]
      intro b hb c hc
      exact Pat.clean_cells _ ((hprep.good b hb).tidy c hc).clean
    have hm := moveAll_same hs.unaliasLaw env bs st.taken (by rw [hcells]; simp)
      (by rw [hcells]; simp)
    refine compile_fine_step hs (compile_exact sk guards hs fuel) ih hb h ⟨?_, ?_, ?_, ?_⟩
    · intro b' hb'
      obtain ⟨b, hb, ⟨t, rfl⟩, hsm⟩ := forall₂_mem_right hm.flip b' hb'
      exact (hprep.good b hb).move t hsm
    · refine forall₂_pairwise (R := fun b' b => ∃ t, b' = (moveBranch t b).1) (S := Later) ?_
        (hm.imp fun _ _ h => h.1) hprep.later
      rintro _ a _ b ⟨t, rfl⟩ ⟨u, rfl⟩ h
      exact h.move t u
    · intro b' hb'
      obtain ⟨b, hb, ⟨t, rfl⟩, hsm⟩ := forall₂_mem_right hm.flip b' hb'
      exact (hprep.read b hb).move (hprep.good b hb).ok t
    · intro b' hb'
      obtain ⟨b, hb, ⟨t, rfl⟩, hsm⟩ := forall₂_mem_right hm.flip b' hb'
      exact (hprep.loud b hb).same rfl hsm

end

end Verif.JsCase
