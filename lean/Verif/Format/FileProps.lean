import Verif.Format.FileRead

/-!
# C81: a formatted file declares the same
-/
namespace Verif.Format
open Verif.Lexer Verif.Lexer.Spec Verif.Format.Spec Verif.TypeText
open Verif.Pretty (Doc)

/-! ### The normal form -/

section
variable {β : Type} {F : BodyFormat β} {Ok : β → Prop} {norm : β → β}

theorem declarationDoc_normal (keeps : KeepsBodies F Ok norm) {width : List Char → Nat} {blank : Nat → Bool} {d : Declaration β}
    (ok : DeclarationOk Ok d) : declarationDoc F width blank (normalDeclaration norm d) = declarationDoc F width blank d := by
  cases d with
  | type_ d => exact definitionDoc_normal d
  | function s body =>
    cases body with
    | none => exact functionDoc_normal s none
    | some body =>
      have h := functionDoc_normal (width := width) s (some (F.doc (norm body)))
      rw [keeps.again body (ok.2 body rfl)] at h
      unfold declarationDoc normalDeclaration
      simp only [Option.map_some]
      rw [keeps.again body (ok.2 body rfl)]
      exact h
  | constant c => exact constantDoc_normal ok

theorem declarationDocs_normal (keeps : KeepsBodies F Ok norm) {width : List Char → Nat} {blanks : Nat → Nat → Bool} :
    (ds : List (Declaration β)) → (∀ d ∈ ds, DeclarationOk Ok d) → ∀ (first : Bool) (n : Nat),
    declarationDocs F width blanks first n (ds.map (normalDeclaration norm)) = declarationDocs F width blanks first n ds
  | [], _, _, _ => rfl
  | d :: ds, ok, first, n => by
    rw [List.map_cons, declarationDocs, declarationDocs, declarationDoc_normal keeps (ok d (by simp)),
      declarationDocs_normal keeps ds fun e he => ok e (by simp [he])]

theorem sameDeclaration_normal (d : Declaration β) : SameDeclaration norm d (normalDeclaration norm d) := by
  cases d with
  | type_ d => rfl
  | function s body => exact ⟨rfl, rfl⟩
  | constant c => exact sameConstant_normal c

/-! ### The theorems -/

/-- What is read from a file that is written. -/
theorem written_file_is_read (keeps : KeepsBodies F Ok norm) {f : File β} (ok : FileOk Ok f) (width : List Char → Nat)
    (limit : Int) (blanks : Nat → Nat → Bool) :
    readFile F (formatFile F width limit blanks f) =
      some ⟨(sortBy (·.module) f.imports).map normalImport, f.declarations.map (normalDeclaration norm)⟩ := by
  have hl := Pretty.print_is_layout limit (fileDoc F width blanks f)
  generalize hsrc : formatFile F width limit blanks f = source
  unfold formatFile at hsrc
  rw [hsrc] at hl
  obtain ⟨iss, dss, h1, h2, h3, hb⟩ := file_seen (eof := endOffset source) keeps ok hl
  obtain ⟨h6, h7⟩ := seen_tokens h3 hb
  have h8 := reads_file ok h1 h2
  unfold readFile
  generalize tokens source = q at h6 h7
  obtain ⟨ts, e⟩ := q
  cases h7
  simp only at h6 ⊢
  rw [h6, h8]

/-- **C81.** If bodies of functions are kept, so are files: a file that is read from a text, formatted, is a text that is read as
a file that imports the same, used by the same names, and declares the same types, constants and functions in the same order,
with the same attributes, whatever the length of a line, the width of characters and the empty lines between constructors. An
annotation `Foo()` in it is read as `Foo`. -/
theorem formatted_file_declares_the_same (keeps : KeepsBodies F Ok norm) {source : List Char} {f : File β}
    (h : readFile F source = some f) (width : List Char → Nat) (limit : Int) (blanks : Nat → Nat → Bool) :
    ∃ g, readFile F (formatFile F width limit blanks f) = some g ∧ SameFile norm f g :=
  ⟨_, written_file_is_read keeps (read_file_ok keeps h) width limit blanks,
    ⟨_, sortBy_sorts f.imports, forall₂_map sameImport_normal _⟩, forall₂_map sameDeclaration_normal _⟩

/-- **C81.** A formatted file is formatted as it is. -/
theorem formatting_a_file_again_is_same (keeps : KeepsBodies F Ok norm) {source : List Char} {f : File β}
    (h : readFile F source = some f) (width : List Char → Nat) (limit : Int) (blanks : Nat → Nat → Bool) :
    ∃ g, readFile F (formatFile F width limit blanks f) = some g ∧
      formatFile F width limit blanks g = formatFile F width limit blanks f := by
  refine ⟨_, written_file_is_read keeps (read_file_ok keeps h) width limit blanks, congrArg (Pretty.toPrettyString limit) ?_⟩
  have he : ((sortBy (·.module) f.imports).map normalImport).isEmpty = f.imports.isEmpty := by
    rw [Bool.eq_iff_iff, List.isEmpty_iff, List.isEmpty_iff, List.map_eq_nil_iff, sortBy_nil]
  unfold fileDoc
  simp only [he, importsDoc_normal, declarationDocs_normal keeps _ (read_file_ok keeps h).2]

end

/-! ### Bodies that are one simple value -/

/-- Bodies that are one simple value are kept. -/
theorem simple_bodies_are_kept (width : List Char → Nat) : KeepsBodies (simpleBody width) ConstValueOk normalValue where
  reads b ok eof i br out hl := by
    refine ⟨[valueTok b], fun rest => ?_, fun rest => value_seen (eof := eof) ok hl '\n' rest (by simp [Sep])⟩
    cases b <;> rfl
  ok ks b rest h e := by
    have e : parseSimpleBody ks = some (b, rest) := e
    unfold parseSimpleBody at e
    split at e
    · next e1 =>
      cases e
      exact parseConstUnit_ok h e1
    · cases e
  again b ok := constValueDoc_normal ok

/-- **C81**, for functions with no body or one that is a simple value: nothing is assumed. -/
theorem formatted_simple_file_declares_the_same {width : List Char → Nat} {source : List Char} {f : File ConstValue}
    (h : readFile (simpleBody width) source = some f) (limit : Int) (blanks : Nat → Nat → Bool) :
    ∃ g, readFile (simpleBody width) (formatFile (simpleBody width) width limit blanks f) = some g ∧
      SameFile normalValue f g ∧
      formatFile (simpleBody width) width limit blanks g = formatFile (simpleBody width) width limit blanks f := by
  obtain ⟨g, h1, h2⟩ := formatted_file_declares_the_same (simple_bodies_are_kept width) h width limit blanks
  obtain ⟨g', h3, h4⟩ := formatting_a_file_again_is_same (simple_bodies_are_kept width) h width limit blanks
  rw [h1] at h3
  cases h3
  exact ⟨g, h1, h2, h4⟩

/-! ### A case that meets the hypotheses -/

/-- A file with imports, an alias, a type, constants, an external function and a function with a body. -/
def exampleFile : List Char :=
  ("import gleam/list import a.{type B} const z=T type C=B pub opaque type T{T(x:Int)} @deprecated(\"no\")pub const n:Int=1000_00" ++
    "@internal @external(erlang,\"lists\",\"map\") pub fn map(l:List(a),f:fn(a)->b)->List(b) fn one(){12345} const last=one").toList

example :
    (readFile (simpleBody List.length) exampleFile).map (formatFile (simpleBody List.length) List.length 80 fun _ _ => false) =
      some (("import a.{type B}\nimport gleam/list\n\nconst z = T\n\ntype C =\n  B\n\npub opaque type T {\n  T(x: Int)\n}\n\n" ++
        "@deprecated(\"no\")\npub const n: Int = 100_000\n\n" ++
        "@external(erlang, \"lists\", \"map\")\n@internal\npub fn map(l: List(a), f: fn(a) -> b) -> List(b)\n\n" ++
        "fn one() {\n  12_345\n}\n\nconst last = one\n").toList) ∧
    (readFile (simpleBody List.length) []).map (formatFile (simpleBody List.length) List.length 80 fun _ _ => false) = some "\n".toList ∧
    (readFile (simpleBody List.length) "@external(erlang, \"a\", \"b\") const x = 1".toList).isNone ∧
    (readFile (simpleBody List.length) "type A type".toList).isNone ∧
    (readFile (simpleBody List.length) "type A )".toList).isNone := by
  decide +kernel

end Verif.Format
