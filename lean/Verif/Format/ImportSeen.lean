import Verif.Format.PatternSeen
import Verif.Format.AnnotationSeen
import Verif.Format.ImportSort

/-!
# A formatted import is read as its tokens
-/
namespace Verif.Format
open Verif.Lexer Verif.Lexer.Spec Verif.Format.Spec Verif.TypeText
open Verif.Pretty (Doc joinWith)
open Verif.Pretty.Spec (Layout)

/-- A name of a type, a constructor or another value. -/
def IsWord (n : Name) : Prop := IsName n ∨ IsUpName n

/-- An item that can be written. Both of its names are names of types or constructors, or none is. -/
def ItemOk (isType : Bool) (u : Unqualified) : Prop :=
  (IsUpName u.name ∧ ∀ a, u.asName = some a → IsUpName a) ∨
    isType = false ∧ IsName u.name ∧ ∀ a, u.asName = some a → IsName a

/-- A path of names with slashes between them. -/
def ModuleOk (m : Name) : Prop :=
  ∃ (s : Name) (ss : List Name), m = s ++ ss.flatMap (fun n => '/' :: n) ∧ IsName s ∧ ∀ n ∈ ss, IsName n

/-- An import that can be written. -/
def ImportOk (i : Import) : Prop :=
  ModuleOk i.module ∧ (∀ a, i.asName = some a → AssignNameOk a) ∧ (∀ u ∈ i.types, ItemOk true u) ∧
    ∀ u ∈ i.values, ItemOk false u

/-- The item without a second name that is the first. -/
def normalItem (u : Unqualified) : Unqualified := ⟨u.name, if u.asName = some u.name then none else u.asName⟩

/-- The import a formatted import is read as. -/
def normalImport (i : Import) : Import :=
  ⟨i.module, if i.asName = some (.variable_ (lastSegment i.module)) then none else i.asName,
    (sortBy (·.name) i.types).map normalItem, (sortBy (·.name) i.values).map normalItem⟩

/-! ### Tokens -/

/-- The token of a name. -/
def nameTok (n : Name) : Token :=
  match n with
  | c :: _ => if 'A' ≤ c ∧ c ≤ 'Z' then .upName n else .name n
  | [] => .name n

def asToks : Option Name → List Token
  | none => []
  | some a => [.keyword .as_, nameTok a]

def itemToks (x : Bool × Unqualified) : List Token :=
  (if x.1 then [.keyword .type_] else []) ++ nameTok x.2.name :: asToks (normalItem x.2).asName

/-- The items in the order in which they are written. -/
def items (i : Import) : List (Bool × Unqualified) :=
  (sortBy (·.name) i.types).map (fun u => (true, u)) ++ (sortBy (·.name) i.values).map fun u => (false, u)

def BraceToks (i : Import) (ks : List Token) : Prop :=
  (items i = [] ∧ ks = []) ∨ ∃ x xs c, items i = x :: xs ∧ MaybeComma c ∧
    ks = .symbol .dot :: .symbol .leftBrace :: (itemToks x ++ (xs.flatMap (fun y => .symbol .comma :: itemToks y) ++
      (c ++ [.symbol .rightBrace])))

def aliasToks : Option AssignName → List Token
  | none => []
  | some a => .keyword .as_ :: assignNameToks a

def ImportToks (i : Import) (ks : List Token) : Prop :=
  ∃ (s : Name) (ss : List Name) (mid : List Token), ks = .keyword .import_ :: .name s :: (ss.flatMap (fun n => [.symbol .slash, .name n]) ++
      (mid ++ aliasToks (normalImport i).asName)) ∧
    i.module = s ++ ss.flatMap (fun n => '/' :: n) ∧ IsName s ∧ (∀ n ∈ ss, IsName n) ∧ BraceToks i mid

theorem nameTok_upName {n : Name} (h : IsUpName n) : nameTok n = .upName n := by
  obtain ⟨_, ⟨c, r, rfl, h1, h2⟩, _⟩ := h
  rw [nameTok]
  rw [if_pos ⟨h1, h2⟩]

theorem nameTok_name {n : Name} (h : IsName n) : nameTok n = .name n := by
  obtain ⟨_, ⟨c, r, rfl, h1, h2⟩, _⟩ := h
  rw [nameTok]
  rw [if_neg]
  rintro ⟨_, h3⟩
  have h1 : 97 ≤ c.toNat := h1
  have h3 : c.toNat ≤ 90 := h3
  omega

section
variable {eof : Nat} {width : List Char → Nat}

theorem stop_of {c : Char} {rest : List Char} (h : c ∈ ['(', '.', ' ', ':', '/', '}', ',', '\n']) : Stop (c :: rest) := by
  intro d hd
  cases hd
  unfold NameChar
  revert h
  revert c
  decide

theorem stop_nil : Stop [] := by intro c h; cases h

theorem seen_word {n : Name} {rest : List Char} (hs : Stop rest) (h : IsWord n) : Seen eof n [nameTok n] rest := by
  rcases h with h | h
  · rw [nameTok_name h]; exact seen_name hs h
  · rw [nameTok_upName h]; exact seen_upName hs h

theorem seen_keyword (k : Keyword) {rest : List Char} (hs : Stop rest) : Seen eof (keywordText k) [.keyword k] rest := by
  have h := lexes_word (eof := eof) (t := keywordText k) (c := (keywordText k).head?.getD 'a') hs (by cases k <;> rfl)
    (by cases k <;> decide) (keyword_chars k) (by cases k <;> decide)
  rw [keyword_token] at h
  exact seen_lexes h rfl

theorem seen_keywordSpace (k : Keyword) {rest : List Char} : Seen eof (keywordText k ++ [' ']) [.keyword k] rest :=
  Seen.append (ls := []) (seen_keyword k (stop_of (by simp))) seen_space

theorem seen_brace {c : Char} {s : Symbol} {rest : List Char} (h : (c, s) ∈ [('{', Symbol.leftBrace), ('}', .rightBrace)]) :
    Seen eof [c] [.symbol s] rest := by
  refine seen_lexes (lexes_token (by simp) fun p he => ?_) rfl
  simp only [List.mem_cons, Prod.mk.injEq, List.not_mem_nil, or_false] at h
  rcases h with ⟨rfl, rfl⟩ | ⟨rfl, rfl⟩
  all_goals
    simp only [List.singleton_append] at he ⊢
    have n1 := next1 he (by decide) (by decide)
    rw [bytes_one (by decide)]
    refine ⟨n1.2, p, (View eof (p + 1) rest).location0, ?_⟩
    simp only [consumeNormal, view_cons_char0, ne_eq, Char.reduceEq, not_false_eq_true, location_cons, view_cons_char1,
      isUpper, isNameStart, isLower, isNumberStart, isDigit, startsDigit, consumeCharacter, singleSymbol, if_true, if_false,
      eatSingleChar, emit, n1.1, Bool.and_eq_true, decide_eq_true_eq]
    rfl

theorem seen_dotBrace {rest : List Char} : Seen eof ['.'] [.symbol .dot] ('{' :: rest) := by
  refine seen_lexes (lexes_token (by simp) fun p he => ?_) rfl
  simp only [List.singleton_append] at he ⊢
  have n1 := next1 he (by decide) (by decide)
  rw [bytes_one (by decide)]
  refine ⟨n1.2, p, (View eof (p + 1) ('{' :: rest)).location0, ?_⟩
  simp only [consumeNormal, view_cons_char0, ne_eq, Char.reduceEq, not_false_eq_true, location_cons, view_cons_char1,
    isUpper, isNameStart, isLower, isNumberStart, isDigit, startsDigit, consumeCharacter, singleSymbol, if_true, if_false,
    emit, n1.1, Option.some.injEq, Bool.and_eq_true, decide_eq_true_eq, lexDot]
  rw [maybeLexDotAccess_done (view_cons_char0 (by decide)) (by decide)]
  rfl

theorem seen_slash {c : Char} {rest : List Char} (h1 : 'a' ≤ c) (h2 : c ≤ 'z') :
    Seen eof ['/'] [.symbol .slash] (c :: rest) := by
  have h3 : 97 ≤ c.toNat := h1
  have e1 : c ≠ '\r' := by rintro rfl; revert h3; decide
  have e2 : c ≠ '.' := by rintro rfl; revert h3; decide
  have e3 : c ≠ '/' := by rintro rfl; revert h3; decide
  have e4 : c ≠ '=' := by rintro rfl; revert h3; decide
  refine seen_lexes (lexes_token (by simp) fun p he => ?_) rfl
  simp only [List.singleton_append] at he ⊢
  have n1 := next1 he (by decide) (by decide)
  rw [bytes_one (by decide)]
  refine ⟨n1.2, p, (View eof (p + 1) (c :: rest)).location0, ?_⟩
  simp only [consumeNormal, view_cons_char0, ne_eq, Char.reduceEq, not_false_eq_true, location_cons, view_cons_char1,
    isUpper, isNameStart, isLower, isNumberStart, isDigit, startsDigit, consumeCharacter, singleSymbol, if_true, if_false,
    emit, n1.1, Option.some.injEq, Bool.and_eq_true, decide_eq_true_eq, lexSlash, e1, e2, e3, e4]
  rfl

theorem seen_path {ss : List Name} (h : ∀ n ∈ ss, IsName n) : ∀ {s : Name} {rest : List Char}, IsName s → Stop rest →
    Seen eof (s ++ ss.flatMap (fun n => '/' :: n)) (.name s :: ss.flatMap (fun n => [.symbol .slash, .name n])) rest := by
  induction ss with
  | nil =>
    intro s rest hs hr
    rw [List.flatMap_nil, List.append_nil]
    exact seen_name hr hs
  | cons n ss ih =>
    intro s rest hs hr
    have hn := h n (by simp)
    have h1 := ih (fun m hm => h m (by simp [hm])) hn hr
    obtain ⟨_, ⟨c, r, e, h2, h3⟩, _⟩ := hn
    rw [List.flatMap_cons, List.flatMap_cons]
    refine Seen.append (ks := [.name s]) (seen_name ?_ hs) ?_
    · exact stop_of (by simp)
    · refine Seen.append (t := ['/']) (ks := [.symbol .slash]) ?_ h1
      rw [e]
      exact seen_slash h2 h3

/-! ### Items -/

theorem itemOk_word {b : Bool} {u : Unqualified} (h : ItemOk b u) :
    IsWord u.name ∧ ∀ a, u.asName = some a → IsWord a := by
  rcases h with ⟨h1, h2⟩ | ⟨_, h1, h2⟩
  · exact ⟨.inr h1, fun a e => .inr (h2 a e)⟩
  · exact ⟨.inl h1, fun a e => .inl (h2 a e)⟩

theorem unqualified_seen {b : Bool} {u : Unqualified} (h : ItemOk b u) {i : Int} {br : Bool} {out rest : List Char}
    (hl : Layout (unqualifiedDoc width u) i br out) (hs : Stop rest) :
    Seen eof out (nameTok u.name :: asToks (normalItem u).asName) rest := by
  obtain ⟨h1, h2⟩ := itemOk_word h
  obtain ⟨n, a⟩ := u
  unfold unqualifiedDoc at hl
  obtain ⟨x, y, rfl, e1, e2⟩ := layout_append hl
  cases e1
  cases a with
  | none =>
    cases e2
    rw [List.append_nil]
    exact seen_word hs h1
  | some a =>
    simp only at e2
    unfold normalItem
    by_cases h3 : a = n
    · rw [if_pos h3] at e2
      cases e2
      simp only [h3, if_true, asToks, List.append_nil]
      exact seen_word hs h1
    · rw [if_neg h3] at e2
      obtain ⟨p, q, rfl, e3, e4⟩ := layout_append e2
      cases e3
      cases e4
      simp only [Option.some.injEq, h3, if_false, asToks]
      refine Seen.append (ks := [nameTok n]) (seen_word (stop_of (c := ' ') (by simp)) h1) ?_
      exact Seen.append (ks := [.keyword .as_]) seen_as (seen_word hs (h2 a rfl))

/-- The document of an item. -/
def itemDoc (width : List Char → Nat) (x : Bool × Unqualified) : Doc :=
  if x.1 then Pretty.concat [text width "type ".toList, unqualifiedDoc width x.2] else unqualifiedDoc width x.2

theorem item_seen {x : Bool × Unqualified} (h : ItemOk x.1 x.2) {i : Int} {br : Bool} {out rest : List Char}
    (hl : Layout (itemDoc width x) i br out) (hs : Stop rest) : Seen eof out (itemToks x) rest := by
  obtain ⟨b, u⟩ := x
  cases b with
  | false => exact unqualified_seen h hl hs
  | true =>
    obtain ⟨x, y, rfl, e1, e2⟩ := layout_append
      (show Layout ((text width "type ".toList).append (unqualifiedDoc width u)) i br out from hl)
    cases e1
    exact Seen.append (ks := [.keyword .type_]) (seen_keywordSpace .type_) (unqualified_seen h e2 hs)

theorem seen_flexComma {i : Int} {br : Bool} {out rest : List Char} (h : Layout flexComma i br out) :
    Seen eof out [.symbol .comma] rest ∧ ∃ r, out = ',' :: r := by
  rcases h with ⟨_, rfl⟩ | ⟨_, rfl⟩
  · exact ⟨Seen.append (t := [',']) (ks := [.symbol .comma]) (seen_symbol (by decide)) (seen_lineEnd _), _, rfl⟩
  · exact ⟨Seen.append (t := [',']) (u := [' ']) (ks := [.symbol .comma]) (ls := []) (seen_symbol (by decide)) seen_space, _, rfl⟩

theorem items_seen {i : Int} {br : Bool} : {xs : List (Bool × Unqualified)} → (∀ x ∈ xs, ItemOk x.1 x.2) →
    ∀ {out rest : List Char}, LayAll flexComma i br (xs.map (itemDoc width)) out → Stop rest →
    Seen eof out (xs.flatMap fun y => .symbol .comma :: itemToks y) rest ∧ Stop (out ++ rest)
  | [], _, out, rest, hl, hs => by
    rw [List.map_nil, LayAll] at hl
    subst hl
    exact ⟨Seen.nil, hs⟩
  | x :: xs, h, out, rest, hl, hs => by
    obtain ⟨s, a, b, rfl, e1, e2, e3⟩ := hl
    obtain ⟨h1, h2⟩ := items_seen (fun y hy => h y (by simp [hy])) e3 hs
    obtain ⟨h3, r, hr⟩ := seen_flexComma (eof := eof) (rest := a ++ b ++ rest) e1
    refine ⟨?_, ?_⟩
    · rw [List.flatMap_cons]
      exact Seen.append (ks := [.symbol .comma]) h3 (Seen.append (item_seen (h x (by simp)) e2 h2) h1)
    · rw [hr]
      exact stop_of (by simp)

theorem items_map (i : Import) : (items i).map (itemDoc width) =
    ((sortBy (·.name) i.types).map fun u => Pretty.concat [text width "type ".toList, unqualifiedDoc width u]) ++
      (sortBy (·.name) i.values).map fun u => unqualifiedDoc width u := by
  simp [items, itemDoc, Function.comp_def]

theorem sortBy_nil {α : Type} {key : α → Name} {l : List α} : sortBy key l = [] ↔ l = [] := by
  constructor
  · intro h
    have := sortBy_perm (key := key) l
    rw [h] at this
    exact this.symm.eq_nil
  · rintro rfl
    rfl

theorem items_nil (i : Import) : items i = [] ↔ (i.values.isEmpty && i.types.isEmpty) = true := by
  simp only [items, List.append_eq_nil_iff, List.map_eq_nil_iff, sortBy_nil, Bool.and_eq_true, List.isEmpty_iff]
  exact and_comm

theorem items_ok {i : Import} (h : ImportOk i) : ∀ x ∈ items i, ItemOk x.1 x.2 := by
  intro x hx
  rcases List.mem_append.1 hx with hx | hx
  · obtain ⟨u, hu, rfl⟩ := List.mem_map.1 hx
    exact h.2.2.1 u (sortBy_mem.1 hu)
  · obtain ⟨u, hu, rfl⟩ := List.mem_map.1 hx
    exact h.2.2.2 u (sortBy_mem.1 hu)

theorem braces_seen {i : Import} (ok : ImportOk i) {j : Int} {br : Bool} {out rest : List Char}
    (hl : Layout (itemsDoc width i.types i.values) j br out) :
    ∃ ks, BraceToks i ks ∧ (Stop rest → Seen eof out ks rest ∧ Stop (out ++ rest)) := by
  unfold itemsDoc at hl
  by_cases h : (i.values.isEmpty && i.types.isEmpty) = true
  · rw [if_pos h] at hl
    cases hl
    exact ⟨[], .inl ⟨(items_nil i).2 h, rfl⟩, fun hs => ⟨Seen.nil, hs⟩⟩
  · rw [if_neg h] at hl
    simp only at hl
    rw [← items_map] at hl
    cases hi : items i with
    | nil => exact absurd ((items_nil i).1 hi) h
    | cons x xs =>
      rw [hi, List.map_cons] at hl
      have hok := items_ok ok
      rw [hi] at hok
      obtain ⟨a, b, rfl, e1, e2⟩ := layout_append hl
      obtain ⟨p, q, rfl, e3, e4⟩ := layout_append e1
      cases e2
      cases e3
      obtain ⟨br, e4⟩ := layout_grouped e4
      obtain ⟨u, v, rfl, e5, e6⟩ := layout_append e4
      obtain ⟨y, z, rfl, e7, e8⟩ := layout_append
        (show Layout (emptyBreak.append (joinWith flexComma (itemDoc width x :: xs.map (itemDoc width)))) _ _ u from e5)
      obtain ⟨f, t, rfl, e9, e10⟩ := layout_joinWith e8
      obtain ⟨c, hc, sc, sc'⟩ := seen_trailingCommaBreak (eof := eof) e6
      have st : Stop (v ++ ['}'] ++ rest) := by
        rcases sc' with rfl | ⟨r, rfl⟩
        · exact stop_of (c := '}') (by simp)
        · exact stop_of (c := ',') (by simp)
      refine ⟨_, .inr ⟨x, xs, c, hi, hc, rfl⟩, fun hs => ⟨?_, stop_of (c := '.') (by simp)⟩⟩
      have g0 : Seen eof (v ++ ['}']) (c ++ [.symbol .rightBrace]) rest := Seen.append (sc _) (seen_brace (by decide))
      obtain ⟨g1, g1s⟩ := items_seen (eof := eof) (fun y hy => hok y (by simp [hy])) e10 st
      have g2 := Seen.append (item_seen (hok x (by simp)) e9 (by simpa using g1s)) (Seen.append g1 g0)
      have g3 := Seen.append (ks := []) (seen_emptyBreak e7).1 g2
      have g4 := Seen.append (t := ['.']) (ks := [.symbol .dot]) seen_dotBrace
        (Seen.append (t := ['{']) (ks := [.symbol .leftBrace]) (seen_brace (by decide)) g3)
      simpa using g4

theorem alias_seen {doc : Doc} {a : AssignName} (h : AssignNameOk a) {i : Int} {br : Bool} {out rest : List Char}
    (hl : Layout ((doc.append (text width " as ".toList)).append (assignNameDoc width a)) i br out) (hs : Stop rest) :
    ∃ x y, out = x ++ y ∧ Layout doc i br x ∧ Seen eof y (aliasToks (some a)) rest ∧ Stop (y ++ rest) := by
  obtain ⟨x, y, rfl, e1, e2⟩ := layout_append hl
  obtain ⟨p, q, rfl, e3, e4⟩ := layout_append e1
  cases e4
  refine ⟨p, " as ".toList ++ y, by simp, e3, ?_, stop_of (c := ' ') (by simp)⟩
  refine Seen.append (ks := [.keyword .as_]) seen_as ?_
  cases a with
  | variable_ n => cases e2; exact seen_name hs h
  | discard n => cases e2; exact seen_discard hs h

theorem importDoc_split {i : Import} (ok : ImportOk i) {j : Int} {br : Bool} {out rest : List Char}
    (hl : Layout (importDoc width i) j br out) (hs : Stop rest) :
    ∃ x y, out = x ++ y ∧
      Layout (Pretty.concat [text width "import ".toList, text width i.module, itemsDoc width i.types i.values]) j br x ∧
      Seen eof y (aliasToks (normalImport i).asName) rest ∧ Stop (y ++ rest) := by
  unfold importDoc at hl
  unfold normalImport
  simp only at hl ⊢
  have same : ∀ {d : Doc}, Layout d j br out → ∃ x y, out = x ++ y ∧ Layout d j br x ∧ Seen eof y [] rest ∧ Stop (y ++ rest) :=
    fun h => ⟨out, [], by simp, h, Seen.nil, hs⟩
  cases ha : i.asName with
  | none =>
    rw [ha] at hl
    exact same hl
  | some a =>
    rw [ha] at hl
    have hok := ok.2.1 a ha
    cases a with
    | variable_ n =>
      simp only at hl
      by_cases hn : lastSegment i.module = n
      · rw [if_pos hn] at hl
        rw [hn, if_pos rfl]
        exact same hl
      · rw [if_neg hn] at hl
        rw [if_neg (by simpa using fun e => hn e.symm)]
        exact alias_seen hok hl hs
    | discard n =>
      rw [if_neg (by simp)]
      exact alias_seen hok hl hs

theorem import_seen {i : Import} (ok : ImportOk i) {j : Int} {br : Bool} {out rest : List Char}
    (hl : Layout (importDoc width i) j br out) (hs : Stop rest) :
    ∃ ks, ImportToks i ks ∧ Seen eof out ks rest ∧ ∃ r, out = 'i' :: r := by
  obtain ⟨x, y, rfl, e1, h1, h2⟩ := importDoc_split (eof := eof) ok hl hs
  obtain ⟨p, q, u, rfl, e2, e3, e4⟩ := e1
  cases e2
  obtain ⟨mid, h3, h4⟩ := braces_seen (eof := eof) (rest := y ++ rest) ok e4
  obtain ⟨h4, h5⟩ := h4 h2
  have e3 : q = i.module := e3
  subst e3
  obtain ⟨s, ss, hm, hn, hns⟩ := ok.1
  refine ⟨_, ⟨s, ss, mid, rfl, hm, hn, hns, h3⟩, ?_, _, rfl⟩
  rw [hm]
  have g1 := Seen.append h4 h1
  have g2 := Seen.append (seen_path hns hn (by simpa using h5)) g1
  have g3 := Seen.append (t := "import ".toList) (ks := [.keyword .import_]) (seen_keywordSpace .import_) g2
  simpa using g3

theorem imports_seen {j : Int} {br : Bool} : {is : List Import} → (∀ i ∈ is, ImportOk i) →
    ∀ {out rest : List Char}, LayAll (.line 1) j br (is.map fun i => importDoc width i) out → Stop rest →
    ∃ kss, List.Forall₂ ImportToks is kss ∧ Seen eof out kss.flatten rest ∧ Stop (out ++ rest)
  | [], _, out, rest, hl, hs => by
    rw [List.map_nil, LayAll] at hl
    subst hl
    exact ⟨[], .nil, Seen.nil, hs⟩
  | i :: is, h, out, rest, hl, hs => by
    obtain ⟨s, a, b, rfl, e1, e2, e3⟩ := hl
    obtain ⟨kss, h1, h2, h3⟩ := imports_seen (fun y hy => h y (by simp [hy])) e3 hs
    obtain ⟨ks, h4, h5, _⟩ := import_seen (eof := eof) (h i (by simp)) e2 h3
    cases e1
    refine ⟨ks :: kss, .cons h4 h1, ?_, stop_of (c := '\n') (by simp)⟩
    rw [List.flatten_cons]
    exact Seen.append (ks := []) (seen_lineEnd _) (Seen.append h5 h2)

end
end Verif.Format
