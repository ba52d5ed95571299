import Verif.Pretty.Layout
import Verif.Pretty.Table
/-!
# C14 C15 C16 C17 C50: the pretty printer

Specification in `Spec.lean`: `Layout`, `flat`, `PrintAlike`, `Truthful`.
-/
namespace Verif.Pretty

open Spec

theorem print_prints (limit : Int) (d : Doc) : ∃ p', Prints d 0 .unbroken ⟨0, 0⟩ (print limit d) p' := by
  rw [print_den]
  obtain ⟨evs, p', h, hp⟩ := den_prints limit d 0 .unbroken (Or.inr rfl) (fun w => decide (w ≤ limit)) (fun _ => []) ⟨0, 0⟩
  rw [h, List.append_nil]
  exact ⟨p', hp⟩

/-- **C14.** Whatever the limit, the output is a layout of the document: every text in order and verbatim, every break
its broken or its unbroken text, indentation as nested, nothing else. -/
theorem print_is_layout (limit : Int) (d : Doc) : Layout d 0 false (toPrettyString limit d) := by
  obtain ⟨p', h, -⟩ := print_prints limit d
  exact h

/-- **C14.** If breaks are only spaces and newlines (the same text broken or not), the output without spaces and newlines
does not depend on the limit: it is the texts of the document in order. -/
theorem print_content (limit : Int) (d : Doc) (h : BreaksAgree d) : content (toPrettyString limit d) = docContent d :=
  layout_content d 0 false _ (print_is_layout limit d) h

/-- `f(` break `aaa,` break `bbb` break `)`, as the formatter builds calls. -/
def sample : Doc :=
  .group (.join4 (.str "f".toList 1)
    (.nest 2 .increase .ifBroken (.join4 (.brk "(".toList "(".toList .strict) (.str "aaa".toList 3)
      (.brk ",".toList ", ".toList .strict) (.str "bbb".toList 3)))
    (.brk [] [] .strict) (.str ")".toList 1))

example : BreaksAgree sample := by simp [sample, BreaksAgree, content]

example : toPrettyString 80 sample = "f(aaa, bbb)".toList ∧
    toPrettyString 5 sample = "f(\n  aaa,\n  bbb\n)".toList := by
  constructor <;>
    simp [toPrettyString, print_den, sample, den, meas, groupMode, Meas.seq, Meas.cont, byteLen, formatIndent, newIndent,
      brokenEvents, Ev.chars, Char.utf8Size]

/-- **C15, the decision.** A group of a plain document is printed unbroken exactly if no break in its first line is forced
and its first line printed flat stays within the limit. -/
theorem group_unbroken_iff (limit : Int) (i : Int) (m : Mode) (d : Doc) (q : List Entry) (p : Pos) (hp : Plain d) :
    format limit (⟨i, m, .group d⟩ :: q) p =
      if (flat d).forced = false ∧ p.width + (flat d).columns ≤ limit then format limit (⟨i, .unbroken, d⟩ :: q) p
      else format limit (⟨i, .broken, d⟩ :: q) p := by
  conv => lhs; unfold format
  simp only [fits_one, meas_flat d hp .unbroken (Or.inl rfl), flatMeas]
  cases hf : (flat d).forced with
  | true => simp [Meas.cont]
  | false => cases (flat d).newline <;> simp [Meas.cont]

example : Plain sample ∧ Sane sample := by simp [sample, Plain, Sane]

/-- **C15.** When a group is printed unbroken, what is printed is its first line flat, up to its end or its first
mandatory newline, and this does not cross the limit. -/
theorem unbroken_group_within_limit (limit : Int) (i : Int) (m : Mode) (d : Doc) (q : List Entry) (p : Pos)
    (hp : Plain d) (hs : Sane d) (hf : (flat d).forced = false) (hw : p.width + (flat d).columns ≤ limit) :
    ((flat d).newline = false → ∃ evs, format limit (⟨i, m, .group d⟩ :: q) p =
        evs ++ format limit q ⟨p.line, p.width + (flat d).columns⟩ ∧ evs.flatMap Ev.chars = (flat d).text) ∧
    ((flat d).newline = true → ∃ evs post, format limit (⟨i, m, .group d⟩ :: q) p = evs ++ .newline :: post ∧
        evs.flatMap Ev.chars = (flat d).text) := by
  rw [group_unbroken_iff limit i m d q p hp, if_pos ⟨hf, hw⟩, format_den]
  exact den_flat limit d hp hs i _ _ p hf hw

/-- **C15.** A document of texts and breaks in a group that fits is printed on one line, whatever is nested inside. -/
theorem fitting_document_on_one_line (limit : Int) (d : Doc) (hp : Plain d) (hs : Sane d)
    (hf : (flat d).forced = false) (hn : (flat d).newline = false) (hw : ((flat d).columns : Int) ≤ limit) :
    toPrettyString limit (.group d) = (flat d).text := by
  obtain ⟨evs, h, ht⟩ := (unbroken_group_within_limit limit 0 .unbroken d [] ⟨0, 0⟩ hp hs hf (by simpa using hw)).1 hn
  have hnil : ∀ p, format limit [] p = [] := by intro p; unfold format; rfl
  rw [hnil, List.append_nil] at h
  rw [toPrettyString, print, h, ht]

example : Plain sample ∧ Sane sample ∧ (flat sample).forced = false ∧ (flat sample).newline = false ∧
    ((flat sample).columns : Int) ≤ 80 := by
  refine ⟨by simp [sample, Plain], by simp [sample, Sane], by simp [sample, flat, Flat.andThen],
    by simp [sample, flat, Flat.andThen], ?_⟩
  simp [sample, flat, Flat.andThen, byteLen, Char.utf8Size]

/-- **C15, flexible breaks.** A flexible break in a broken group stays on the line exactly if what follows, up to its next
newline, fits; here for what follows a single plain unbroken document. -/
theorem flex_break_iff (limit : Int) (i j : Int) (b u : List Char) (d : Doc) (p : Pos) (hp : Plain d) :
    format limit [⟨i, .broken, .brk b u .flex⟩, ⟨j, .unbroken, d⟩] p =
      if (flat d).forced = false ∧ p.width + byteLen u + (flat d).columns ≤ limit then
        .text u (byteLen u) :: format limit [⟨j, .unbroken, d⟩] ⟨p.line, p.width + byteLen u⟩
      else brokenEvents b i ++ format limit [⟨j, .unbroken, d⟩] ⟨p.line + 1, i⟩ := by
  conv => lhs; unfold format
  simp only [fits_one, meas_flat d hp .unbroken (Or.inl rfl), flatMeas]
  cases hf : (flat d).forced with
  | true => simp [Meas.cont]
  | false => cases (flat d).newline <;> simp [Meas.cont]

/-- **C16.** Joining is associative and the empty document is neutral, wherever it occurs. -/
theorem join_laws (a b c : Doc) :
    PrintAlike (.join (.join a b) c) (.join a (.join b c)) ∧
    PrintAlike (.join a .empty) a ∧ PrintAlike (.join .empty a) a :=
  ⟨(join_assoc a b c).alike, (join_empty a).alike, (empty_join a).alike⟩

/-- **C16.** The constructors for three and four documents, and appending, print as joining one by one. -/
theorem append_laws (a b c d : Doc) :
    PrintAlike (a.append b) (.join a b) ∧ PrintAlike (.join3 a b c) (.join a (.join b c)) ∧
    PrintAlike (.join4 a b c d) (.join a (.join b (.join c d))) ∧
    PrintAlike (a.surround b c) (.join b (.join a c)) := by
  refine ⟨(append_join a b).alike, (join3_join a b c).alike, (join4_join a b c d).alike, SemEq.alike ?_⟩
  exact ((append_join _ c).trans ((append_join b a).fill (.joinL .hole c))).trans (join_assoc b a c)

theorem concatLoop_join (ds : List Doc) (d : Doc) : SemEq (concatLoop d ds) (.join d (ds.foldr .join .empty)) := by
  fun_induction concatLoop d ds with
  | case1 d => exact (join_empty d).symm
  | case2 d x => exact (append_join d x).trans (((join_empty x).symm).fill (.joinR d .hole))
  | case3 d x y => exact (join3_join d x y).trans (((join_empty y).symm).fill (.joinR d (.joinR x .hole)))
  | case4 d x y z ds ih =>
    refine ih.trans ?_
    refine ((join4_join d x y z).fill (.joinL .hole _)).trans ?_
    refine (join_assoc d _ _).trans (SemEq.fill ?_ (.joinR d .hole))
    refine (join_assoc x _ _).trans (SemEq.fill ?_ (.joinR x .hole))
    exact join_assoc y z _

/-- **C16.** `concat` prints as joining its documents in order, however many. -/
theorem concat_law (ds : List Doc) : PrintAlike (concat ds) (ds.foldr .join .empty) := by
  cases ds with
  | nil => exact (SemEq.refl _).alike
  | cons d ds => exact (concatLoop_join ds d).alike

/-- Documents with a separator between neighbours. -/
def separated (sep : Doc) : List Doc → List Doc
  | [] => []
  | [d] => [d]
  | d :: e :: ds => d :: sep :: separated sep (e :: ds)

theorem foldr_join_append (as bs : List Doc) :
    SemEq ((as ++ bs).foldr .join .empty) (.join (as.foldr .join .empty) (bs.foldr .join .empty)) := by
  induction as with
  | nil => exact (empty_join _).symm
  | cons a as ih => exact (ih.fill (.joinR a .hole)).trans (join_assoc _ _ _).symm

theorem joinLoop (sep : Doc) (ds : List Doc) (d : Doc) (as : List Doc) (h : SemEq d (as.foldr .join .empty)) :
    SemEq (ds.foldl (fun previous next => .join3 previous sep next) d)
      ((as ++ ds.flatMap fun x => [sep, x]).foldr .join .empty) := by
  induction ds generalizing d as with
  | nil => simpa using h
  | cons x ds ih =>
    have := ih (.join3 d sep x) (as ++ [sep, x]) (by
      refine SemEq.trans ?_ (foldr_join_append as [sep, x]).symm
      refine (join3_join d sep x).trans ((h.fill (.joinL .hole _)).trans (SemEq.fill ?_ (.joinR _ .hole)))
      exact ((join_empty x).symm).fill (.joinR sep .hole))
    simpa using this

theorem separated_eq (sep : Doc) (d : Doc) (ds : List Doc) :
    separated sep (d :: ds) = d :: ds.flatMap fun x => [sep, x] := by
  induction ds generalizing d with
  | nil => rfl
  | cons e ds ih => simp [separated, ih]

/-- **C16.** `join` prints as joining its documents with the separator between neighbours, however many. -/
theorem join_law (sep : Doc) (ds : List Doc) : PrintAlike (joinWith sep ds) ((separated sep ds).foldr .join .empty) := by
  cases ds with
  | nil => exact (SemEq.refl _).alike
  | cons d ds =>
    rw [separated_eq]
    exact (joinLoop sep ds d [d] (join_empty d).symm).alike

/-- **C16.** The shortcuts of `group` change nothing; nesting and grouping documents without breaks changes nothing. -/
theorem group_nest_laws (d : Doc) :
    PrintAlike d.grouped (.group d) ∧ PrintAlike (.group (.group d)) (.group d) ∧
    (NoBreaks d → PrintAlike (.group d) d) ∧
    (NoBreaks d → ∀ n mode condition, PrintAlike (.nest n mode condition d) d) :=
  ⟨(grouped_group d).alike, ((grouped_group (.group d)).symm).alike, fun h => (group_noBreaks d h).alike,
   fun h n mode c => (nest_noBreaks d h n mode c).alike⟩

example : NoBreaks (.join (.str "a".toList 1) (.group (.zeroWidth "b".toList))) := ⟨trivial, trivial⟩

/-- **C16.** Printing documents one after another: the second continues at the position the first left off. -/
theorem print_continues (limit : Int) (i : Int) (d : Doc) (q : List Entry) (p : Pos) (hi : 0 ≤ i) (hs : Sane d) (m : Mode)
    (hm : m = .broken ∨ m = .unbroken) :
    ∃ evs, format limit (⟨i, m, d⟩ :: q) p = evs ++ format limit q (evs.foldl after p) ∧
      Layout d i (m == .broken) (evs.flatMap Ev.chars) := by
  rw [format_den]
  obtain ⟨evs, p', h, hl, ht⟩ := den_prints limit d i m hm (fun w => fits limit w q) (fun p => format limit q p) p
  obtain ⟨rfl, -⟩ := ht hs hi
  exact ⟨evs, h, hl⟩

/-- **C17.** The declared width of every constant fragment is the number of its characters, except for five. -/
theorem declared_widths_partial :
    ∀ e ∈ constStrs, e.1 ∉ ["CONST_SPACE_DOCUMENT", "SPACE_AS_DOCUMENT", "IF_SPACE_DOCUMENT",
      "INTERNAL_ATTRIBUTE_SPACE_DOCUMENT", "DIVIDE_FLOAT_DOCUMENT"] → e.2.1.toList.length = e.2.2 := by
  decide +kernel

/-- **C17, false of the code** for those five. -/
theorem declared_widths_wrong :
    ∀ n ∈ ["CONST_SPACE_DOCUMENT", "SPACE_AS_DOCUMENT", "IF_SPACE_DOCUMENT", "INTERNAL_ATTRIBUTE_SPACE_DOCUMENT",
      "DIVIDE_FLOAT_DOCUMENT"], ∃ e ∈ constStrs, e.1 = n ∧ e.2.1.toList.length > e.2.2 := by
  decide +kernel

/-- **C17.** All constant texts are ASCII without control characters, so that every character is one grapheme, and for
breaks, whose width is their number of bytes, one byte. -/
theorem const_texts_printable :
    (∀ e ∈ constStrs, ∀ c ∈ e.2.1.toList, 32 ≤ c.toNat ∧ c.toNat < 127) ∧
    (∀ e ∈ constBreaks, (∀ c ∈ e.2.1.toList, 32 ≤ c.toNat ∧ c.toNat < 127) ∧
      (∀ c ∈ e.2.2.toList, 32 ≤ c.toNat ∧ c.toNat < 127)) := by
  decide +kernel

/-! ### Cursor positions -/

theorem truthful_at (p : Pos) (pre post : List Ev) (id : Nat) (l w : Int)
    (h : Truthful p (pre ++ .observed id l w :: post)) : l = (pre.foldl after p).line ∧ w = (pre.foldl after p).width := by
  rw [truthful_append] at h
  obtain ⟨-, h⟩ := h
  exact ⟨h.1, h.2.1⟩

/-- Texts hold no newline. -/
def NoNewlineText : Ev → Prop
  | .text s _ => '\n' ∉ s
  | _ => True

theorem den_noNewline (limit : Int) (d : Doc) (i : Int) (m : Mode) (kf : Int → Bool) (k : Pos → List Ev) (p : Pos)
    (hs : Sane d) (hk : ∀ p, ∀ e ∈ k p, NoNewlineText e) : ∀ e ∈ den limit d i m kf k p, NoNewlineText e := by
  induction d generalizing i m kf k p with
  | line n =>
    intro e he
    simp only [den, List.mem_append, List.mem_cons, List.mem_replicate] at he
    rcases he with ⟨-, rfl⟩ | rfl | he
    · trivial
    · trivial
    · exact hk _ e he
  | brk b u kind =>
    have hb : ∀ p' : Pos, ∀ e ∈ brokenEvents b i ++ k p', NoNewlineText e := by
      intro p' e he
      simp only [brokenEvents, List.cons_append, List.nil_append, List.mem_cons] at he
      rcases he with rfl | rfl | rfl | he
      · exact hs.1
      · trivial
      · trivial
      · exact hk _ e he
    have hu : ∀ p' : Pos, ∀ e ∈ Ev.text u (byteLen u) :: k p', NoNewlineText e := by
      intro p' e he
      rcases List.mem_cons.1 he with rfl | he
      · exact hs.2
      · exact hk _ e he
    cases kind <;> simp only [den] <;> split <;> first | exact hb _ | exact hu _
  | str s g =>
    intro e he
    rcases List.mem_cons.1 he with rfl | he
    · exact hs
    · exact hk _ e he
  | zeroWidth s =>
    intro e he
    rcases List.mem_cons.1 he with rfl | he
    · exact hs
    · exact hk _ e he
  | observer n =>
    intro e he
    rcases List.mem_cons.1 he with rfl | he
    · trivial
    · exact hk _ e he
  | empty => exact hk p
  | join a b iha ihb =>
    simp only [den]
    exact iha _ _ _ _ _ hs.1 fun p => ihb _ _ _ _ _ hs.2 hk
  | join3 a b c iha ihb ihc =>
    simp only [den]
    exact iha _ _ _ _ _ hs.1 fun p => ihb _ _ _ _ _ hs.2.1 fun p => ihc _ _ _ _ _ hs.2.2 hk
  | join4 a b c d iha ihb ihc ihd =>
    simp only [den]
    exact iha _ _ _ _ _ hs.1 fun p => ihb _ _ _ _ _ hs.2.1 fun p => ihc _ _ _ _ _ hs.2.2.1 fun p =>
      ihd _ _ _ _ _ hs.2.2.2 hk
  | nest n nm c d ih => simp only [den]; exact ih _ _ _ _ _ hs.2 hk
  | group d ih => simp only [den]; split <;> exact ih _ _ _ _ _ hs hk
  | forceBroken d ih | nextBreakFits d e ih => simp only [den]; exact ih _ _ _ _ _ hs hk

theorem lineOf_text {s : List Char} (h : '\n' ∉ s) : lineOf s = 0 := List.count_eq_zero.2 h

theorem after_line (evs : List Ev) (p : Pos) (h : ∀ e ∈ evs, NoNewlineText e) :
    (evs.foldl after p).line = p.line + lineOf (evs.flatMap Ev.chars) := by
  induction evs generalizing p with
  | nil => simp [lineOf]
  | cons e evs ih =>
    rw [List.foldl_cons, ih _ (fun e he => h e (by simp [he]))]
    have he := h e (by simp)
    simp only [List.flatMap_cons, lineOf, List.count_append]
    cases e with
    | newline => simp [after, Ev.chars]; omega
    | spaces n => simp [after, Ev.chars, List.count_replicate]
    | text s w => simp only [after, Ev.chars]; rw [List.count_eq_zero.2 he]; simp
    | observed => simp [after, Ev.chars]

/-- **C50, lines.** An observer is told the number of newlines in the text printed before it. -/
theorem observed_line (limit : Int) (d : Doc) (hs : Sane d) (pre post : List Ev) (id : Nat) (line width : Int)
    (h : print limit d = pre ++ .observed id line width :: post) :
    line = lineOf (pre.flatMap Ev.chars) := by
  obtain ⟨p', -, ht⟩ := print_prints limit d
  obtain ⟨-, ht⟩ := ht hs (Int.le_refl 0)
  rw [h] at ht
  obtain ⟨h1, -⟩ := truthful_at _ _ _ _ _ _ ht
  rw [h1, after_line pre ⟨0, 0⟩ ?_]
  · simp
  · intro e he
    have := den_noNewline limit d 0 .unbroken (fun w => decide (w ≤ limit)) (fun _ => []) ⟨0, 0⟩ hs (by simp)
    rw [← print_den, h] at this
    exact this e (by simp [he])

/-- The number of UTF-16 code units of a text, the unit of source map columns. -/
def utf16Len (s : List Char) : Nat := (s.map fun c => if c.toNat < 0x10000 then 1 else 2).sum

/-- The column the printer counts for each text is its number of UTF-16 code units. -/
def Exact : Doc → Prop
  | .str s g => g = utf16Len s
  | .zeroWidth s => s = []
  | .brk b u _ => byteLen b = utf16Len b ∧ byteLen u = utf16Len u
  | .join a b => Exact a ∧ Exact b
  | .join3 a b c => Exact a ∧ Exact b ∧ Exact c
  | .join4 a b c d => Exact a ∧ Exact b ∧ Exact c ∧ Exact d
  | .nest _ _ _ d => Exact d
  | .group d => Exact d
  | .forceBroken d => Exact d
  | .nextBreakFits d _ => Exact d
  | _ => True

/-- The same for events. -/
def ExactText : Ev → Prop
  | .text s w => w = utf16Len s
  | _ => True

theorem den_exact (limit : Int) (d : Doc) (i : Int) (m : Mode) (kf : Int → Bool) (k : Pos → List Ev) (p : Pos)
    (hs : Exact d) (hk : ∀ p, ∀ e ∈ k p, ExactText e) : ∀ e ∈ den limit d i m kf k p, ExactText e := by
  induction d generalizing i m kf k p with
  | line n =>
    intro e he
    simp only [den, List.mem_append, List.mem_cons, List.mem_replicate] at he
    rcases he with ⟨-, rfl⟩ | rfl | he
    · trivial
    · trivial
    · exact hk _ e he
  | brk b u kind =>
    have hb : ∀ p' : Pos, ∀ e ∈ brokenEvents b i ++ k p', ExactText e := by
      intro p' e he
      simp only [brokenEvents, List.cons_append, List.nil_append, List.mem_cons] at he
      rcases he with rfl | rfl | rfl | he
      · exact hs.1
      · trivial
      · trivial
      · exact hk _ e he
    have hu : ∀ p' : Pos, ∀ e ∈ Ev.text u (byteLen u) :: k p', ExactText e := by
      intro p' e he
      rcases List.mem_cons.1 he with rfl | he
      · exact hs.2
      · exact hk _ e he
    cases kind <;> simp only [den] <;> split <;> first | exact hb _ | exact hu _
  | str s g =>
    intro e he
    rcases List.mem_cons.1 he with rfl | he
    · exact hs
    · exact hk _ e he
  | zeroWidth s =>
    intro e he
    rcases List.mem_cons.1 he with rfl | he
    · simp only [Exact] at hs; subst hs; rfl
    · exact hk _ e he
  | observer n =>
    intro e he
    rcases List.mem_cons.1 he with rfl | he
    · trivial
    · exact hk _ e he
  | empty => exact hk p
  | join a b iha ihb =>
    simp only [den]
    exact iha _ _ _ _ _ hs.1 fun p => ihb _ _ _ _ _ hs.2 hk
  | join3 a b c iha ihb ihc =>
    simp only [den]
    exact iha _ _ _ _ _ hs.1 fun p => ihb _ _ _ _ _ hs.2.1 fun p => ihc _ _ _ _ _ hs.2.2 hk
  | join4 a b c d iha ihb ihc ihd =>
    simp only [den]
    exact iha _ _ _ _ _ hs.1 fun p => ihb _ _ _ _ _ hs.2.1 fun p => ihc _ _ _ _ _ hs.2.2.1 fun p =>
      ihd _ _ _ _ _ hs.2.2.2 hk
  | nest n nm c d ih => simp only [den]; exact ih _ _ _ _ _ hs hk
  | group d ih => simp only [den]; split <;> exact ih _ _ _ _ _ hs hk
  | forceBroken d ih | nextBreakFits d e ih => simp only [den]; exact ih _ _ _ _ _ hs hk

theorem takeWhile_self {f : Char → Bool} {l : List Char} : l.takeWhile f = l ↔ ∀ c ∈ l, f c = true := by
  induction l with
  | nil => simp
  | cons c l ih => cases h : f c <;> simp [List.takeWhile_cons, h, ih]

theorem columnText_append (a b : List Char) :
    columnText (a ++ b) = if '\n' ∈ b then columnText b else columnText a ++ b := by
  unfold columnText
  rw [List.reverse_append, List.takeWhile_append]
  by_cases hb : '\n' ∈ b
  · rw [if_pos hb, if_neg]
    intro h
    have h2 : b.reverse.takeWhile (fun c => decide (c ≠ '\n')) = b.reverse :=
      (List.takeWhile_prefix _).eq_of_length h
    have : ∀ c ∈ b.reverse, decide (c ≠ '\n') = true := by rw [← takeWhile_self]; exact h2
    simpa using this '\n' (by simpa using hb)
  · have h2 : b.reverse.takeWhile (fun c => decide (c ≠ '\n')) = b.reverse := by
      rw [takeWhile_self]
      intro c hc
      simp only [decide_eq_true_eq]
      rintro rfl
      exact hb (by simpa using hc)
    rw [if_neg hb, h2, if_pos rfl]
    simp

theorem utf16Len_append (a b : List Char) : utf16Len (a ++ b) = utf16Len a + utf16Len b := by simp [utf16Len]

theorem after_width (evs : List Ev) (p : Pos) (done : List Char) (h : ∀ e ∈ evs, NoNewlineText e)
    (hx : ∀ e ∈ evs, ExactText e) (hp : p.width = utf16Len (columnText done)) :
    (evs.foldl after p).width = utf16Len (columnText (done ++ evs.flatMap Ev.chars)) := by
  induction evs generalizing p done with
  | nil => simpa using hp
  | cons e evs ih =>
    rw [List.foldl_cons, List.flatMap_cons, ← List.append_assoc]
    refine ih _ _ (fun e he => h e (by simp [he])) (fun e he => hx e (by simp [he])) ?_
    have he := h e (by simp)
    have hxe := hx e (by simp)
    rw [columnText_append]
    cases e with
    | newline => simp [after, Ev.chars, columnText, utf16Len]
    | spaces n =>
      rw [if_neg (by simp [Ev.chars]), utf16Len_append]
      simp [after, Ev.chars, hp, utf16Len]
    | text s w =>
      rw [if_neg (by simpa [Ev.chars, NoNewlineText] using he), utf16Len_append]
      simp only [ExactText] at hxe
      simp [after, Ev.chars, hp, hxe]
    | observed => simp [after, Ev.chars, hp]

/-- **C50, columns, partial.** If every text is as wide as its number of UTF-16 code units, an observer is told the column
in UTF-16 code units in the text printed before it. What is missing: texts for which the number of graphemes differs from
the number of UTF-16 code units, see `observed_column_wrong`. -/
theorem observed_column_partial (limit : Int) (d : Doc) (hs : Sane d) (hx : Exact d) (pre post : List Ev) (id : Nat)
    (line width : Int) (h : print limit d = pre ++ .observed id line width :: post) :
    width = utf16Len (columnText (pre.flatMap Ev.chars)) := by
  obtain ⟨p', -, ht⟩ := print_prints limit d
  obtain ⟨-, ht⟩ := ht hs (Int.le_refl 0)
  rw [h] at ht
  obtain ⟨-, h1⟩ := truthful_at _ _ _ _ _ _ ht
  have hn := den_noNewline limit d 0 .unbroken (fun w => decide (w ≤ limit)) (fun _ => []) ⟨0, 0⟩ hs (by simp)
  have he := den_exact limit d 0 .unbroken (fun w => decide (w ≤ limit)) (fun _ => []) ⟨0, 0⟩ hx (by simp)
  rw [← print_den, h] at hn he
  rw [h1, after_width pre ⟨0, 0⟩ [] (fun e he => hn e (by simp [he])) (fun e h => he e (by simp [h])) (by rfl)]
  simp

/-- `let x = ` newline observer `f()`. -/
def observedSample : Doc := .join4 (.str "let x =".toList 7) (.nest 2 .increase .always (.line 1)) (.observer 0) (.str "f()".toList 3)

example : Sane observedSample ∧ Exact observedSample ∧
    print 80 observedSample = [.text "let x =".toList 7, .newline, .spaces 2, .observed 0 1 2, .text "f()".toList 3] := by
  refine ⟨?_, ?_, ?_⟩
  · simp [observedSample, Sane]
  · simp [observedSample, Exact, utf16Len]
  · simp [observedSample, print_den, den, formatIndent, newIndent]

/-- **C50, false of the code** after an emoji: one grapheme, two UTF-16 code units. -/
theorem observed_column_wrong : ∃ (d : Doc) (pre post : List Ev) (line width : Int), Sane d ∧
    print 80 d = pre ++ .observed 0 line width :: post ∧ width ≠ utf16Len (columnText (pre.flatMap Ev.chars)) := by
  refine ⟨.join (.str ['"', '👍', '"'] 3) (.observer 0), [.text ['"', '👍', '"'] 3], [], 0, 3, ?_, ?_, ?_⟩
  · simp [Sane]
  · simp [print_den, den]
  · simp [Ev.chars, columnText, utf16Len]

end Verif.Pretty
