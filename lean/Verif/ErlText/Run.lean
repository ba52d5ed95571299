import Verif.ErlText.Text
import Verif.ErlText.Ok

/-! # The calls of a term print its text -/

namespace Verif.ErlText

/-- A stack whose top is not over. -/
def Open : List Pos → Prop
  | .list _ .over :: _ => False
  | .binary .over _ _ :: _ => False
  | _ => True

theorem popLeftover_open (code : Text) (ps : List Pos) (h : Open ps) : popLeftover code ps = (code, ps) := by
  unfold popLeftover
  split
  · simp [Open] at h
  · simp [Open] at h
  · rfl

theorem popLeftover_isOpen (code : Text) (ps : List Pos) : Open (popLeftover code ps).2 := by
  induction ps generalizing code with
  | nil => trivial
  | cons p ps ih =>
    by_cases h : Open (p :: ps)
    · rw [popLeftover_open _ _ h]; exact h
    · unfold Open at h
      split at h
      · rename_i heq; cases heq; exact ih _
      · rename_i heq; cases heq; exact ih _
      · exact absurd trivial h

theorem popLeftover_idem (code : Text) (ps : List Pos) :
    popLeftover (popLeftover code ps).1 (popLeftover code ps).2 = popLeftover code ps :=
  popLeftover_open _ _ (popLeftover_isOpen code ps)

theorem flush_flush (b : Builder) : b.flush.flush = b.flush := by
  have h := popLeftover_idem b.code b.position
  simp [Builder.flush, h]

@[simp] theorem flush_indentation (b : Builder) : b.flush.indentation = b.indentation := rfl

theorem newExpression_flush (b : Builder) : b.flush.newExpression = b.newExpression := by
  unfold Builder.newExpression; rw [flush_flush]

theorem newPattern_flush (b : Builder) : b.flush.newPattern = b.newPattern := by
  unfold Builder.newPattern; rw [flush_flush]

theorem newItem_flush (b : Builder) (k : Kind) : b.flush.newItem k = b.newItem k := by
  cases k
  · exact newPattern_flush b
  · exact newExpression_flush b

theorem call_flush (b : Builder) (c : Call) :
    (b.flush.call c).map Builder.flush = (b.call c).map Builder.flush := by
  cases c <;>
    simp only [Builder.call, Builder.topLevel, Builder.close, Builder.doNotWrap, Builder.markCalled, Builder.consList,
      Builder.emptyList, flush_flush, newExpression_flush, newPattern_flush]
  · split
    · simp [flush_flush]
    · rfl
  · split
    · simp [flush_flush]
    · rfl

/-- A sequence of calls, with the items that are over removed at the end. -/
def Builder.runF (b : Builder) (cs : List Call) : Option Builder := (b.run cs).map Builder.flush

theorem runF_nil (b : Builder) : b.runF [] = some b.flush := rfl

theorem runF_flush (b : Builder) (cs : List Call) : b.flush.runF cs = b.runF cs := by
  induction cs generalizing b with
  | nil => simp [Builder.runF, Builder.run, flush_flush]
  | cons c cs ih =>
    have h := call_flush b c
    simp only [Builder.runF, Builder.run]
    cases h1 : b.flush.call c <;> cases h2 : b.call c <;> simp only [h1, h2, Option.map_some, Option.map_none] at h ⊢
    · cases h
    · cases h
    · rename_i x y
      have hxy : x.flush = y.flush := Option.some.inj h
      have := ih x
      have h' := ih y
      simp only [Builder.runF] at this h'
      rw [← this, ← h', hxy]

theorem runF_cons (b : Builder) (c : Call) (cs : List Call) :
    b.runF (c :: cs) = ((b.call c).map Builder.flush).bind (fun b => b.runF cs) := by
  simp only [Builder.runF, Builder.run]
  cases b.call c with
  | none => rfl
  | some x =>
    have := runF_flush x cs
    simp only [Builder.runF] at this
    simp [this]

theorem runF_append (b : Builder) (cs ds : List Call) :
    b.runF (cs ++ ds) = (b.runF cs).bind (fun b => b.runF ds) := by
  induction cs generalizing b with
  | nil => simp [runF_nil, runF_flush]
  | cons c cs ih =>
    rw [List.cons_append, runF_cons, runF_cons]
    cases b.call c with
    | none => rfl
    | some x => simp [ih]

theorem flush_open (c : Text) (ps : List Pos) (i : Nat) (h : Open ps) : Builder.flush ⟨c, ps, i⟩ = ⟨c, ps, i⟩ := by
  simp [Builder.flush, popLeftover_open c ps h]

theorem flush_is_open (b : Builder) : Open b.flush.position := popLeftover_isOpen b.code b.position

def isSize : List Pos → Bool
  | .segment .size _ _ :: _ => true
  | _ => false

def isOperand : List Pos → Bool
  | .binary _ _ _ :: _ => true
  | .unary :: _ => true
  | _ => false

/-- What the first call of a term does before it prints the item: it may turn the parentheses of a segment off,
or those of a called expression on. -/
def Term.before (k : Kind) (t : Term) (b : Builder) : Builder :=
  if t.bare k then b.doNotWrap else if t.isCall then b.markCalled else b

def notRest (k : Kind) : List Pos → Prop
  | .list k' .rest :: _ => k' ≠ k
  | _ => True

/-- The claim for one term. -/
def Prints (k : Kind) (t : Term) : Prop :=
  (∀ b b' : Builder, b.flush = b → (t.before k b).newItem k = some b' → b'.position ≠ [] →
    (t.isList = true → notRest k b.position) →
    b.runF (t.calls k) =
      some (b'.push (t.text k { operand := isOperand b.position, value := isSize b'.position } b.indentation)).flush) ∧
  (∀ c ps i, Builder.runF ⟨c, .list k .rest :: ps, i⟩ (t.calls k) =
    some (Builder.flush ⟨c ++ t.text k { tail := true } i, ps, i⟩))

/-- A container of items. -/
structure Container (k : Kind) (p : Bool → Pos) (first rest : Text) (i : Nat) : Prop where
  open_ : ∀ f ps, Open (p f :: ps)
  plain : ∀ f ps, isOperand (p f :: ps) = false ∧ isSize (p f :: ps) = false ∧ notRest k (p f :: ps)
  item : ∀ f c ps (t : Term), (t.before k ⟨c, p f :: ps, i⟩).newItem k =
    some ⟨c ++ (if f then first else rest), p false :: ps, i⟩

end Verif.ErlText
