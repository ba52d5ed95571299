import Verif.Format.ImportRead
import Verif.Format.ImportOk
import Verif.Format.PatternProps

/-!
# C77: formatted imports import the same
-/
namespace Verif.Format
open Verif.Lexer Verif.Lexer.Spec Verif.Format.Spec Verif.TypeText

/-! ### The normal form imports the same -/

theorem usedName_normal (u : Unqualified) : (normalItem u).name = u.name ∧ usedName (normalItem u) = usedName u := by
  refine ⟨rfl, ?_⟩
  unfold usedName normalItem
  simp only
  split
  · next h => rw [h]; rfl
  · rfl

theorem forall₂_map {α β : Type} {R : α → β → Prop} {f : α → β} (h : ∀ a, R a (f a)) : (l : List α) → List.Forall₂ R l (l.map f)
  | [] => .nil
  | a :: l => .cons (h a) (forall₂_map h l)

theorem sameItems_normal (us : List Unqualified) : SameItems us ((sortBy (·.name) us).map normalItem) :=
  ⟨_, sortBy_sorts us,
    forall₂_map (R := fun u v => v.name = u.name ∧ usedName v = usedName u) (f := normalItem) usedName_normal _⟩

theorem lastPart_unique {path a b : Name} (ha : LastPart path a) (hb : LastPart path b) : a = b := by
  obtain ⟨na, ha⟩ := ha
  obtain ⟨nb, hb⟩ := hb
  rcases ha with rfl | ⟨x, rfl⟩
  · rcases hb with rfl | ⟨y, e⟩
    · rfl
    · rw [e] at na; simp at na
  · rcases hb with e | ⟨y, e⟩
    · rw [← e] at nb; simp at nb
    · rcases List.append_eq_append_iff.1 e with ⟨z, h1, h2⟩ | ⟨z, h1, h2⟩
      · cases z with
        | nil => simpa using h2
        | cons c z =>
          rw [List.cons_append] at h2
          cases h2
          simp at na
      · cases z with
        | nil => simpa using h2.symm
        | cons c z =>
          rw [List.cons_append] at h2
          cases h2
          simp at nb

theorem lastSegment_lastPart (path : Name) : LastPart path (lastSegment path) := by
  unfold lastSegment
  have h := List.takeWhile_append_dropWhile (p := fun c => decide (c ≠ '/')) (l := path.reverse)
  refine ⟨?_, ?_⟩
  · intro hm
    have key : ∀ l : List Char, '/' ∉ l.takeWhile fun c => decide (c ≠ '/') := by
      intro l
      induction l with
      | nil => simp
      | cons c l ih =>
        rw [List.takeWhile_cons]
        split
        · next h => simp only [List.mem_cons, not_or]; exact ⟨fun e => by simp [← e] at h, ih⟩
        · simp
    exact key _ (List.mem_reverse.1 hm)
  · cases hd : path.reverse.dropWhile (fun c => decide (c ≠ '/')) with
    | nil =>
      left
      rw [hd, List.append_nil] at h
      rw [h, List.reverse_reverse]
    | cons c r =>
      right
      have hc : c = '/' := by
        have key : ∀ (l : List Char) {c : Char} {r : List Char}, l.dropWhile (fun c => decide (c ≠ '/')) = c :: r → c = '/' := by
          intro l
          induction l with
          | nil => intro c r h; cases h
          | cons d l ih =>
            intro c r h
            rw [List.dropWhile_cons] at h
            split at h
            · exact ih h
            · next h1 => cases h; simpa using h1
        exact key _ hd
      refine ⟨r.reverse, ?_⟩
      rw [hd, hc] at h
      have h := congrArg List.reverse h
      rw [List.reverse_append, List.reverse_reverse] at h
      simpa using h.symm

theorem usedAs_normal (i : Import) (n : Name) : UsedAs (normalImport i) n ↔ UsedAs i n := by
  unfold UsedAs normalImport
  simp only
  split_ifs with h
  · rw [h]
    simp only
    constructor
    · exact fun e => lastPart_unique (lastSegment_lastPart _) e
    · rintro rfl
      exact lastSegment_lastPart _
  · rfl

theorem sameImport_normal (i : Import) : SameImport i (normalImport i) :=
  ⟨rfl, usedAs_normal i, sameItems_normal _, sameItems_normal _⟩

/-! ### The normal form is formatted as it is -/

theorem unqualifiedDoc_normal {width : List Char → Nat} (u : Unqualified) :
    unqualifiedDoc width (normalItem u) = unqualifiedDoc width u := by
  obtain ⟨n, a⟩ := u
  unfold unqualifiedDoc normalItem
  cases a with
  | none => simp
  | some a =>
    by_cases h : a = n
    · simp [h]
    · simp [h]

theorem sorted_normal (us : List Unqualified) :
    sortBy (·.name) ((sortBy (·.name) us).map normalItem) = (sortBy (·.name) us).map normalItem :=
  sortBy_same (List.pairwise_map.2 (sortBy_sorted us))

theorem itemsDoc_normal {width : List Char → Nat} (ts vs : List Unqualified) :
    itemsDoc width ((sortBy (·.name) ts).map normalItem) ((sortBy (·.name) vs).map normalItem) = itemsDoc width ts vs := by
  have he : ∀ us : List Unqualified, ((sortBy (·.name) us).map normalItem).isEmpty = us.isEmpty := by
    intro us
    rw [Bool.eq_iff_iff, List.isEmpty_iff, List.isEmpty_iff, List.map_eq_nil_iff, sortBy_nil]
  unfold itemsDoc
  rw [he, he, sorted_normal, sorted_normal]
  simp only [List.map_map, Function.comp_def, unqualifiedDoc_normal]

theorem importDoc_normal {width : List Char → Nat} (i : Import) : importDoc width (normalImport i) = importDoc width i := by
  obtain ⟨m, a, ts, vs⟩ := i
  unfold importDoc normalImport
  simp only
  rw [itemsDoc_normal]
  cases a with
  | none => simp
  | some a =>
    cases a with
    | variable_ n =>
      by_cases h : lastSegment m = n
      · simp [h]
      · simp [h, Ne.symm h]
    | discard n => simp

theorem importsDoc_normal {width : List Char → Nat} (is : List Import) :
    importsDoc width ((sortBy (·.module) is).map normalImport) = importsDoc width is := by
  unfold importsDoc
  have h : sortBy (·.module) ((sortBy (·.module) is).map normalImport) = (sortBy (·.module) is).map normalImport :=
    sortBy_same (List.pairwise_map.2 (sortBy_sorted (key := fun i : Import => i.module) is))
  rw [h]
  simp only [List.map_map, Function.comp_def, importDoc_normal]

/-! ### The theorems -/

/-- **C77.** Imports that are made of tokens of the language are written as a text that is read as their normal forms,
whatever the length of a line and the width of characters. Another definition follows. -/
theorem written_imports_are_read {is : List Import} (ok : ∀ i ∈ is, ImportOk i) (width : List Char → Nat) (limit : Int)
    (k : Keyword) (hk : k ≠ .as_ ∧ k ≠ .import_) :
    readImports (formatImports width limit is ++ '\n' :: keywordText k ++ [' ']) =
      some ((sortBy (·.module) is).map normalImport, [.keyword k]) := by
  have hl := Pretty.print_is_layout limit (importsDoc width is)
  have hok : ∀ i ∈ sortBy (·.module) is, ImportOk i := fun i hi => ok i (sortBy_mem.1 hi)
  generalize hsrc : formatImports width limit is ++ '\n' :: keywordText k ++ [' '] = source
  have h0 : ∀ eof, ∃ kss, List.Forall₂ ImportToks (sortBy (·.module) is) kss ∧
      Seen eof (formatImports width limit is) kss.flatten ('\n' :: keywordText k ++ [' ']) ∧
      (formatImports width limit is ++ '\n' :: keywordText k ++ [' ']).head? ≠ some byteOrderMark := by
    intro eof
    unfold formatImports
    generalize Pretty.toPrettyString limit (importsDoc width is) = out at hl
    unfold importsDoc at hl
    generalize sortBy (·.module) is = js at hl hok
    cases js with
    | nil =>
      cases hl
      exact ⟨[], .nil, Seen.nil, by simp [byteOrderMark]⟩
    | cons j js =>
      rw [List.map_cons] at hl
      obtain ⟨x, y, rfl, e1, e2⟩ := layout_joinWith hl
      obtain ⟨kss, h1, h2, h3⟩ := imports_seen (eof := eof) (rest := '\n' :: keywordText k ++ [' '])
        (fun i hi => hok i (by simp [hi])) e2 (stop_of (c := '\n') (by simp))
      obtain ⟨ks, h4, h5, r, rfl⟩ := import_seen (eof := eof) (hok j (by simp)) e1 h3
      refine ⟨ks :: kss, .cons h4 h1, ?_, by simp [byteOrderMark]⟩
      rw [List.flatten_cons]
      exact Seen.append h5 h2
  obtain ⟨kss, h1, h2, hb⟩ := h0 (endOffset source)
  rw [hsrc] at hb
  have h3 : Seen (endOffset source) source (kss.flatten ++ [.keyword k]) [] := by
    have h4 : Seen (endOffset source) ('\n' :: keywordText k ++ [' ']) [.keyword k] [] :=
      Seen.append (t := ['\n']) (ks := []) (u := keywordText k ++ [' ']) seen_newline (seen_keywordSpace k)
    have h5 := Seen.append (rest := []) (by simpa using h2) h4
    rw [← hsrc] at h5 ⊢
    simpa using h5
  obtain ⟨h6, h7⟩ := seen_tokens h3 hb
  have hlen : (sortBy (·.module) is).length ≤ (kss.flatten ++ [Token.keyword k]).length := by
    have : ∀ {js : List Import} {kss : List (List Token)}, List.Forall₂ ImportToks js kss → js.length ≤ kss.flatten.length := by
      intro js kss h
      induction h with
      | nil => simp
      | cons h _ ih =>
        obtain ⟨tail, rfl⟩ := importToks_head h
        rw [List.flatten_cons]
        simp only [List.length_cons, List.length_append]
        omega
    have := this h1
    rw [List.length_append]
    omega
  have h8 := reads_imports hok (rest := [.keyword k]) (fuel := (kss.flatten ++ [Token.keyword k]).length + 1) h1
    (by simp [AfterImport, hk.1]) (by simp [hk.2]) (by omega)
  unfold readImports
  generalize tokens source = r at h6 h7
  obtain ⟨ts, e⟩ := r
  cases h7
  simp only at h6 ⊢
  rw [h6, h8]

/-- **C77.** Imports that are read from a text, formatted, are read as imports of the same modules, types and values, each
used by the same name. The modules are in order, and so are the types and the values of each. -/
theorem formatted_imports_import_the_same {source : List Char} {is : List Import} {rest : List Token}
    (h : readImports source = some (is, rest)) (width : List Char → Nat) (limit : Int) (k : Keyword)
    (hk : k ≠ .as_ ∧ k ≠ .import_) :
    ∃ js, readImports (formatImports width limit is ++ '\n' :: keywordText k ++ [' ']) = some (js, [.keyword k]) ∧
      SameImports is js :=
  ⟨_, written_imports_are_read (read_imports_ok h) width limit k hk, _, sortBy_sorts is, forall₂_map sameImport_normal _⟩

/-- **C77.** Formatted imports are formatted as they are. -/
theorem formatting_imports_again_is_same {source : List Char} {is : List Import} {rest : List Token}
    (h : readImports source = some (is, rest)) (width : List Char → Nat) (limit : Int) (k : Keyword)
    (hk : k ≠ .as_ ∧ k ≠ .import_) :
    ∃ js, readImports (formatImports width limit is ++ '\n' :: keywordText k ++ [' ']) = some (js, [.keyword k]) ∧
      formatImports width limit js = formatImports width limit is :=
  ⟨_, written_imports_are_read (read_imports_ok h) width limit k hk,
    congrArg (Pretty.toPrettyString limit) (importsDoc_normal is)⟩

/-! ### A case that meets the hypotheses -/

/-- Imports in no order, with names that are not needed. -/
def exampleImports : List Char :=
  "import gleam/option.{Some as S,type Option as Option,None, map as map,} as option import b as _b\nimport a.{}\npub ".toList

example :
    (readImports exampleImports).map (fun r => (formatImports List.length 80 r.1, r.2)) =
      some ("import a\nimport b as _b\nimport gleam/option.{type Option, None, Some as S, map}".toList, [.keyword .pub_]) ∧
    (readImports exampleImports).map (fun r => formatImports List.length 30 r.1) =
      some "import a\nimport b as _b\nimport gleam/option.{\n  type Option, None, Some as S,\n  map,\n}".toList := by
  decide +kernel

end Verif.Format
