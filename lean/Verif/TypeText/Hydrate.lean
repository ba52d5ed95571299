import Verif.TypeText.Parse

/-!
# The type that the syntax tree of a type stands for
-/
namespace Verif.TypeText
open Lexer Lexer.Spec

theorem stripAll_eq : (ts : List Ty) → stripAll ts = ts.map Ty.strip
  | [] => rfl
  | t :: ts => by rw [stripAll, stripAll_eq ts]; rfl

theorem renameAll_eq (f : Nat → Nat) : (ts : List Ty) → renameAll f ts = ts.map (Ty.rename f)
  | [] => rfl
  | t :: ts => by rw [renameAll, renameAll_eq f ts]; rfl

theorem substituteAll_eq (f : List (Nat × Ty)) : (ts : List Ty) → substituteAll f ts = ts.map (substitute f)
  | [] => rfl
  | t :: ts => by rw [substituteAll, substituteAll_eq f ts]; rfl

theorem mem_varsAll {i : Nat} : {ts : List Ty} → (i ∈ varsAll ts ↔ ∃ t ∈ ts, i ∈ t.vars)
  | [] => by simp [varsAll]
  | t :: ts => by simp [varsAll, mem_varsAll (ts := ts)]

theorem allIn_iff {P : Name → Name → Nat → Prop} : {ts : List Ty} → (AllIn P ts ↔ ∀ t ∈ ts, t.All P)
  | [] => by simp [AllIn]
  | t :: ts => by simp [AllIn, allIn_iff (ts := ts)]

/-- Later states of the hydrator know more names. -/
structure Grows (h h' : Hydrator) : Prop where
  keeps : ∀ n i, h.created.lookup n = some i → h'.created.lookup n = some i
  new : h'.permitNew = h.permitNew

theorem Grows.refl (h : Hydrator) : Grows h h := ⟨fun _ _ h => h, rfl⟩

theorem Grows.trans {h h' h'' : Hydrator} (h1 : Grows h h') (h2 : Grows h' h'') : Grows h h'' :=
  ⟨fun n i hi => h2.keeps n i (h1.keeps n i hi), h2.new.trans h1.new⟩

theorem lookup_mem {α β : Type} [BEq α] [LawfulBEq α] {a : α} {b : β} : {l : List (α × β)} → l.lookup a = some b → (a, b) ∈ l
  | [], h => by cases h
  | (x, y) :: l, h => by
    rw [List.lookup_cons] at h
    split at h
    · rename_i hx
      rw [← eq_of_beq hx, ← Option.some.inj h]
      simp
    · exact List.mem_cons_of_mem _ (lookup_mem h)

/-- A name that is not known yet gets a number that is not in use. -/
theorem hydratorOk_new {h : Hydrator} {n : Name} (ok : HydratorOk h) (hn : h.created.lookup n = none) :
    HydratorOk { h with created := (n, h.next) :: h.created, next := h.next + 1 } ∧
      Grows h { h with created := (n, h.next) :: h.created, next := h.next + 1 } := by
  have hlt : ∀ m i, h.created.lookup m = some i → i < h.next := fun m i hi => ok.used _ (lookup_mem hi)
  refine ⟨⟨?_, ?_⟩, ?_, rfl⟩
  · intro e he
    simp only [List.mem_cons] at he
    rcases he with rfl | he
    · exact Nat.lt_succ_self _
    · exact Nat.lt_succ_of_lt (ok.used e he)
  · intro a b i ha hb
    simp only [List.lookup_cons] at ha hb
    split at ha <;> split at hb
    · rename_i h1 _ h2
      rw [eq_of_beq h1, eq_of_beq h2]
    · have := hlt b i hb
      cases ha
      exact absurd this (Nat.lt_irrefl _)
    · have := hlt a i ha
      cases hb
      exact absurd this (Nat.lt_irrefl _)
    · exact ok.distinct a b i ha hb
  · intro m i hi
    simp only [List.lookup_cons]
    split
    · rename_i h1
      rw [eq_of_beq h1, hn] at hi
      cases hi
    · exact hi

/-- The variable that a type is, without its links, is replaced by an argument. -/
theorem strip_substitute_var {f : List (Nat × Ty)} {p : Nat} {u : Ty} (hf : f.lookup p = some u) :
    (t : Ty) → t.strip = .var p → (substitute f t).strip = u.strip
  | .var i, h => by
    rw [Ty.strip] at h
    cases h
    rw [substitute, hf, Ty.strip]
  | .link t, h => by
    rw [Ty.strip] at h
    rw [substitute]
    exact strip_substitute_var hf t h
  | .named _ _ _, h => by rw [Ty.strip] at h; cases h
  | .fn _ _, h => by rw [Ty.strip] at h; cases h
  | .tuple _, h => by rw [Ty.strip] at h; cases h

theorem substitute_parameters (f : List (Nat × Ty)) : (args : List Ty) → (ps : List Nat) → (us : List Ty) →
    ps.Nodup → ps.length = us.length → (∀ i t, (i, t) ∈ ps.zip us → f.lookup i = some t) →
    stripAll args = ps.map .var → stripAll (substituteAll f args) = stripAll us
  | [], [], [], _, _, _, _ => rfl
  | [], _ :: _, _, _, _, _, h => by cases h
  | _ :: _, [], _, _, _, _, h => by cases h
  | a :: args, p :: ps, [], _, h, _, _ => by cases h
  | [], [], _ :: _, _, h, _, _ => by cases h
  | a :: args, p :: ps, u :: us, hn, hl, hf, h => by
    rw [stripAll, List.map_cons, List.cons.injEq] at h
    rw [substituteAll, stripAll, stripAll, strip_substitute_var (hf p u (by simp)) a h.1,
      substitute_parameters f args ps us (List.nodup_cons.1 hn).2 (by simpa using hl)
        (fun i t hi => hf i t (by simp [hi])) h.2]

theorem lookup_zip : (ps : List Nat) → (us : List Ty) → ps.Nodup → ∀ i t, (i, t) ∈ ps.zip us → (ps.zip us).lookup i = some t
  | [], _, _, i, t, h => by simp at h
  | _ :: _, [], _, i, t, h => by simp at h
  | p :: ps, u :: us, hn, i, t, h => by
    rw [List.zip_cons_cons, List.mem_cons] at h
    rw [List.zip_cons_cons, List.lookup_cons]
    rcases h with h | h
    · cases h
      simp
    · have h1 : i ∈ ps := (List.of_mem_zip h).1
      have h2 : i ≠ p := fun e => (List.nodup_cons.1 hn).1 (e ▸ h1)
      have h3 : (i == p) = false := by simpa using h2
      rw [h3]
      exact lookup_zip ps us (List.nodup_cons.1 hn).2 i t h

/-- A constructor that stands for a type gives that type with the arguments. -/
theorem substitute_means {c : TypeConstructor} {m n : Name} {us : List Ty} (h : Means c m n) (hn : c.parameters.Nodup)
    (hl : c.parameters.length = us.length) :
    (substitute (c.parameters.zip us) c.type).strip = .named m n (stripAll us) := by
  obtain ⟨args, h1, h2⟩ := h
  rw [h1, substitute, Ty.strip,
    substitute_parameters _ args c.parameters us hn hl (lookup_zip _ _ hn) h2]

mutual
theorem rename_congr {f g : Nat → Nat} : (t : Ty) → (∀ i ∈ t.vars, f i = g i) → t.rename f = t.rename g
  | .named m n ts, h => by rw [Ty.rename, Ty.rename, renameAll_congr ts h]
  | .fn ts r, h => by
    rw [Ty.vars] at h
    rw [Ty.rename, Ty.rename, renameAll_congr ts fun i hi => h i (by simp [hi]), rename_congr r fun i hi => h i (by simp [hi])]
  | .tuple ts, h => by rw [Ty.rename, Ty.rename, renameAll_congr ts h]
  | .var i, h => by rw [Ty.rename, Ty.rename, h i (by simp [Ty.vars])]
  | .link t, h => by rw [Ty.rename, Ty.rename, rename_congr t h]

theorem renameAll_congr {f g : Nat → Nat} : (ts : List Ty) → (∀ i ∈ varsAll ts, f i = g i) → renameAll f ts = renameAll g ts
  | [], _ => rfl
  | t :: ts, h => by
    rw [varsAll] at h
    rw [renameAll, renameAll, rename_congr t fun i hi => h i (by simp [hi]), renameAll_congr ts fun i hi => h i (by simp [hi])]
end

/-- What the name of a type must stand for. -/
def Denotes (env : Env) (world : World) (nt : Name → Name → Option Name × Name) (m n : Name) (k : Nat) : Prop :=
  ∃ c, env.typeConstructor world (nt m n).1 (nt m n).2 = some c ∧ Means c m n ∧ c.parameters.Nodup ∧ c.parameters.length = k

/-- The numbers that names have. -/
def numbers (h : Hydrator) (nv : Nat → Name) (i : Nat) : Nat := (h.created.lookup (nv i)).getD 0

theorem numbers_grow {h h' : Hydrator} {nv : Nat → Name} {i j : Nat} (hg : Grows h h') (hi : h.created.lookup (nv i) = some j) :
    numbers h nv i = numbers h' nv i := by
  unfold numbers
  rw [hi, hg.keeps _ _ hi]

theorem astsOf_length {nt : Name → Name → Option Name × Name} {nv : Nat → Name} :
    (ts : List Ty) → (astsOf nt nv ts).length = ts.length
  | [] => rfl
  | t :: ts => by rw [astsOf, List.length_cons, astsOf_length ts, List.length_cons]

section
variable {env : Env} {world : World} {nt : Name → Name → Option Name × Name} {nv : Nat → Name}

mutual
theorem reads_type : (t : Ty) → t.All (Denotes env world nt) → ∀ h : Hydrator, HydratorOk h → h.permitNew = true →
    ∃ t' h', typeFromAst env world h (astOf nt nv t) = some (t', h') ∧ HydratorOk h' ∧ Grows h h' ∧
      (∀ i ∈ t.vars, ∃ j, h'.created.lookup (nv i) = some j) ∧ t'.strip = t.rename (numbers h' nv)
  | .named m n ts, ha, h, ok, hp => by
    rw [Ty.All] at ha
    obtain ⟨⟨c, hc, hm, hn, hl⟩, ha⟩ := ha
    obtain ⟨us, h', h1, h2, h3, h4, h5, h6⟩ := reads_types ts ha h ok hp
    refine ⟨substitute (c.parameters.zip us) c.type, h', ?_, h2, h3, h4, ?_⟩
    · rw [astOf, typeFromAst, h1]
      simp only [Option.bind_eq_bind, Option.bind_some, hc]
      rw [if_neg, if_neg]
      · rw [astsOf_length, hl]; simp
      · rintro ⟨h7, h8⟩
        rw [h8] at hl
        cases ts with
        | nil => simp at h7
        | cons t ts => simp at hl
    · rw [substitute_means hm hn (by rw [hl, h5]), h6, Ty.rename]
  | .fn ts r, ha, h, ok, hp => by
    rw [Ty.All] at ha
    obtain ⟨us, h', h1, h2, h3, h4, h5, h6⟩ := reads_types ts ha.1 h ok hp
    obtain ⟨u, h'', g1, g2, g3, g4, g5⟩ := reads_type r ha.2 h' h2 (h3.new.trans hp)
    refine ⟨.fn us u, h'', ?_, g2, h3.trans g3, ?_, ?_⟩
    · rw [astOf, typeFromAst, h1]
      simp only [Option.bind_eq_bind, Option.bind_some, g1]
    · intro i hi
      rw [Ty.vars, List.mem_append] at hi
      rcases hi with hi | hi
      · obtain ⟨j, hj⟩ := h4 i hi
        exact ⟨j, g3.keeps _ _ hj⟩
      · exact g4 i hi
    · rw [Ty.strip, Ty.rename, g5, h6]
      congr 1
      refine renameAll_congr ts fun i hi => ?_
      obtain ⟨j, hj⟩ := h4 i hi
      exact numbers_grow g3 hj
  | .tuple ts, ha, h, ok, hp => by
    rw [Ty.All] at ha
    obtain ⟨us, h', h1, h2, h3, h4, h5, h6⟩ := reads_types ts ha h ok hp
    refine ⟨.tuple us, h', ?_, h2, h3, h4, ?_⟩
    · rw [astOf, typeFromAst, h1]
      simp only [Option.bind_eq_bind, Option.bind_some]
    · rw [Ty.strip, Ty.rename, h6]
  | .var i, _, h, ok, hp => by
    rw [astOf]
    cases hl : h.created.lookup (nv i) with
    | some j =>
      refine ⟨.var j, h, ?_, ok, Grows.refl h, ?_, ?_⟩
      · rw [typeFromAst, hl]
      · intro k hk
        rw [Ty.vars, List.mem_singleton] at hk
        subst hk
        exact ⟨j, hl⟩
      · rw [Ty.strip, Ty.rename, numbers, hl]; rfl
    | none =>
      obtain ⟨h1, h2⟩ := hydratorOk_new ok hl
      refine ⟨.var h.next, _, ?_, h1, h2, ?_, ?_⟩
      · rw [typeFromAst, hl]
        simp only [hp, if_true]
      · intro k hk
        rw [Ty.vars, List.mem_singleton] at hk
        subst hk
        exact ⟨h.next, by simp⟩
      · rw [Ty.strip, Ty.rename, numbers]
        simp
  | .link t, ha, h, ok, hp => by
    rw [Ty.All] at ha
    simp only [astOf, Ty.rename, Ty.vars]
    exact reads_type t ha h ok hp

theorem reads_types : (ts : List Ty) → AllIn (Denotes env world nt) ts → ∀ h : Hydrator, HydratorOk h → h.permitNew = true →
    ∃ us h', typesFromAst env world h (astsOf nt nv ts) = some (us, h') ∧ HydratorOk h' ∧ Grows h h' ∧
      (∀ i ∈ varsAll ts, ∃ j, h'.created.lookup (nv i) = some j) ∧ us.length = ts.length ∧
      stripAll us = renameAll (numbers h' nv) ts
  | [], _, h, ok, _ => ⟨[], h, by rw [astsOf, typesFromAst], ok, Grows.refl h, by simp [varsAll], rfl, rfl⟩
  | t :: ts, ha, h, ok, hp => by
    rw [AllIn] at ha
    obtain ⟨u, h', h1, h2, h3, h4, h5⟩ := reads_type t ha.1 h ok hp
    obtain ⟨us, h'', g1, g2, g3, g4, g5, g6⟩ := reads_types ts ha.2 h' h2 (h3.new.trans hp)
    refine ⟨u :: us, h'', ?_, g2, h3.trans g3, ?_, by simp [g5], ?_⟩
    · rw [astsOf, typesFromAst, h1]
      simp only [Option.bind_eq_bind, Option.bind_some, g1]
    · intro i hi
      rw [varsAll, List.mem_append] at hi
      rcases hi with hi | hi
      · obtain ⟨j, hj⟩ := h4 i hi
        exact ⟨j, g3.keeps _ _ hj⟩
      · exact g4 i hi
    · rw [stripAll, renameAll, g6, h5]
      congr 1
      refine rename_congr t fun i hi => ?_
      obtain ⟨j, hj⟩ := h4 i hi
      exact numbers_grow g3 hj
end

end
end Verif.TypeText
