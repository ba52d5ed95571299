import Verif.TypeText.Scope
import Verif.TypeText.Print

/-!
# What is written for a type's name stands for the type
-/
namespace Verif.TypeText
open Lexer Lexer.Spec

theorem bimapGet_some {m : List ((Name × Name) × Name)} {k : Name × Name} {v : Name} (h : bimapGet m k = some v) : (k, v) ∈ m := by
  unfold bimapGet at h
  rw [Option.map_eq_some_iff] at h
  obtain ⟨e, h1, rfl⟩ := h
  have h2 := List.find?_some h1
  rw [decide_eq_true_eq] at h2
  rw [← h2]
  exact List.mem_of_find?_eq_some h1

theorem bimapGet_none {m : List ((Name × Name) × Name)} {k : Name × Name} {v : Name} (h : bimapGet m k = none) : (k, v) ∉ m := by
  unfold bimapGet at h
  rw [Option.map_eq_none_iff, List.find?_eq_none] at h
  intro h1
  exact h _ h1 (by simp)

section
variable {facts : Facts} {world : World} {current : Name} {order : List (Name × Name)} {env : Env} {tv : List (Nat × Name)}

theorem means_length {c : TypeConstructor} {m n : Name} (h : Means c m n) (hw : c.type.WellFormed facts) :
    c.parameters.length = facts.arity m n := by
  obtain ⟨args, h1, h2⟩ := h
  unfold Ty.WellFormed at hw
  rw [h1, Ty.All] at hw
  rw [← hw.1]
  have h3 := congrArg List.length h2
  rw [stripAll_eq, List.length_map, List.length_map] at h3
  exact h3.symm

theorem importable {i : Interface} {n : Name} {c : TypeConstructor} (h : i.types n = some c) (hp : c.publicity.isImportable = true) :
    i.importableType n = some c := by
  unfold Interface.importableType
  rw [Option.filter_eq_some_iff]
  exact ⟨h, hp⟩

theorem nameable_denotes (hw : WorldInv facts world) (inv : EnvInv facts world current order env)
    (ho : ∀ m a m' n, Reexports facts world m a m' n → (m, a) ∈ order) {m n : Name} {k : Nat}
    (h : Nameable facts world env m n) (hk : k = facts.arity m n) :
    Denotes env world (writtenAs { env.names with typeVariables := tv }) m n k ∧
      PartsOk (writtenAs { env.names with typeVariables := tv } m n) := by
  have via : ∀ {m' a : Name} {i : Interface} {c : TypeConstructor}, Imported env m' → world m' = some i → i.types a = some c →
      c.publicity.isImportable = true → Means c m n → ∃ b, env.names.importedModules m' = some b ∧
        env.typeConstructor world (some b) a = some c ∧ c.parameters.Nodup ∧ c.parameters.length = k ∧
        PartsOk (some b, a) := by
    intro m' a i c ⟨b0, hb0⟩ hi hc hp hm
    obtain ⟨b, hb⟩ := inv.importedAll b0 m' hb0
    obtain ⟨h1, h2⟩ := inv.imported m' b hb
    have h3 := (hw.types m' i a c hi hc).1
    refine ⟨b, hb, ?_, h3.nodup, by rw [hk]; exact means_length hm h3.wellFormed, ?_, h3.name⟩
    · simp only [Env.typeConstructor, h1, hi, Option.bind_eq_bind, Option.bind_some]
      exact importable hc hp
    · rintro _ ⟨⟩
      exact h2
  simp only [Denotes, writtenAs, Names.namedType]
  cases hl : bimapGet env.names.localTypes (m, n) with
  | some a =>
    obtain ⟨c, h1, h2⟩ := inv.localOk _ (bimapGet_some hl)
    have h3 := inv.cons _ _ h1
    exact ⟨⟨c, h1, h2, h3.nodup, by rw [hk]; exact means_length h2 h3.wellFormed⟩, ⟨(fun _ h => nomatch h), h3.name⟩⟩
  | none =>
    have noLocal : ∀ a c, env.moduleTypes a = some c → ¬Means c m n := by
      intro a c h1 h2
      obtain ⟨a', h3, _⟩ := inv.localAll a c m n h1 h2
      exact bimapGet_none hl h3
    rcases h with ⟨a, c, h1, h2⟩ | ⟨h1, h2⟩
    · exact absurd h2 (noLocal a c h1)
    · cases hr : env.names.reexportAliases (m, n) with
      | some x =>
        obtain ⟨m', a⟩ := x
        rcases inv.reexport m n m' a hr with g | ⟨c, g1, g2, _⟩
        · obtain ⟨i, c, g1, g2, g3, g4, g5, _⟩ := id g
          obtain ⟨b, e1, e2, e3, e4, e5⟩ := via (h1 m' a g) g1 (hw.aliases _ _ _ _ g1 g3) (by rw [g4]; rfl) g5
          simp only [e1, NameInfo.parts]
          exact ⟨⟨c, e2, g5, e3, e4⟩, e5⟩
        · exact absurd g2 (noLocal a c g1)
      | none =>
        rcases h2 with ⟨m', a, g⟩ | ⟨g1, i, c, g2, g3, g4, g5⟩
        · obtain ⟨x, hx⟩ := inv.reexportAll m' a m n g (ho _ _ _ _ g)
          rw [hr] at hx
          cases hx
        · obtain ⟨b, e1, e2, e3, e4, e5⟩ := via g1 g2 g3 g4 g5
          simp only [e1, NameInfo.parts]
          exact ⟨⟨c, e2, g5, e3, e4⟩, e5⟩

mutual
theorem all_mono {P Q : Name → Name → Nat → Prop} (h : ∀ m n k, P m n k → Q m n k) : (t : Ty) → t.All P → t.All Q
  | .named m n ts, ha => by rw [Ty.All] at ha ⊢; exact ⟨h _ _ _ ha.1, allIn_mono h ts ha.2⟩
  | .fn ts r, ha => by rw [Ty.All] at ha ⊢; exact ⟨allIn_mono h ts ha.1, all_mono h r ha.2⟩
  | .tuple ts, ha => by rw [Ty.All] at ha ⊢; exact allIn_mono h ts ha
  | .var _, _ => by rw [Ty.All]; trivial
  | .link t, ha => by rw [Ty.All] at ha ⊢; exact all_mono h t ha
theorem allIn_mono {P Q : Name → Name → Nat → Prop} (h : ∀ m n k, P m n k → Q m n k) : (ts : List Ty) → AllIn P ts → AllIn Q ts
  | [], _ => by rw [AllIn]; trivial
  | t :: ts, ha => by rw [AllIn] at ha ⊢; exact ⟨all_mono h t ha.1, allIn_mono h ts ha.2⟩
end

mutual
theorem all_and {P Q : Name → Name → Nat → Prop} : (t : Ty) → t.All P → t.All Q → t.All fun m n k => P m n k ∧ Q m n k
  | .named m n ts, ha, hb => by rw [Ty.All] at ha hb ⊢; exact ⟨⟨ha.1, hb.1⟩, allIn_and ts ha.2 hb.2⟩
  | .fn ts r, ha, hb => by rw [Ty.All] at ha hb ⊢; exact ⟨allIn_and ts ha.1 hb.1, all_and r ha.2 hb.2⟩
  | .tuple ts, ha, hb => by rw [Ty.All] at ha hb ⊢; exact allIn_and ts ha hb
  | .var _, _, _ => by rw [Ty.All]; trivial
  | .link t, ha, hb => by rw [Ty.All] at ha hb ⊢; exact all_and t ha hb
theorem allIn_and {P Q : Name → Name → Nat → Prop} : (ts : List Ty) → AllIn P ts → AllIn Q ts →
    AllIn (fun m n k => P m n k ∧ Q m n k) ts
  | [], _, _ => by rw [AllIn]; trivial
  | t :: ts, ha, hb => by rw [AllIn] at ha hb ⊢; exact ⟨all_and t ha.1 hb.1, allIn_and ts ha.2 hb.2⟩
end

end
end Verif.TypeText
