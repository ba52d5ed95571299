import Verif.SrcSpan.Lemmas

/-! Properties C07, C08, C44, C45 (source positions). -/
namespace Verif.SrcSpan
open Spec

/-- C07: for every text and every byte index, the line is one plus the number of newlines that
start before the index (and the computation never panics). -/
theorem lineNumber_spec (src : List Char) (i : Nat) :
    (LineNumbers.new src).lineNumber i = some (1 + newlinesBefore src i) := by
  rw [lineNumber_eq, Nat.add_comm]

example : (LineNumbers.new "é\na\n".toList).lineNumber 4 = some 2 := by decide

/-- C07: at the character boundary after `p`, the line is one plus the newlines in `p`; the UTF-8
column is the byte length of the unfinished line (counted from zero, although the Rust doc comment
says it is 1-indexed). -/
theorem utf8_line_column_spec (p q : List Char) :
    (LineNumbers.new (p ++ q)).lineAndUtf8Column (utf8Len p) =
      some ⟨newlines p + 1, utf8Len (currentLine p)⟩ := by
  obtain ⟨a, hp, hn, ha, _⟩ := split_line p
  unfold LineNumbers.lineAndUtf8Column
  rw [← byteLen_eq, lineNumber_eq, newlinesBefore_append]
  have hl := lineStart_at a (currentLine p ++ q) ha
  rw [← List.append_assoc, ← hp, hn] at hl
  have hb : byteLen p = byteLen a + byteLen (currentLine p) := by
    conv => lhs; rw [hp]
    simp
  simp only [Nat.add_sub_cancel, hl, Option.getD_some]
  rw [if_pos (by omega), ← byteLen_eq, hb]
  simp

/-- C07: the UTF-16 column is one plus the UTF-16 length of the unfinished line. -/
theorem utf16_line_column_spec (p q : List Char) :
    (LineNumbers.new (p ++ q)).lineAndUtf16Column (utf8Len p) =
      some ⟨newlines p + 1, utf16Len (currentLine p) + 1⟩ := by
  obtain ⟨a, hp, hn, ha, _⟩ := split_line p
  unfold LineNumbers.lineAndUtf16Column
  rw [← byteLen_eq, lineNumber_eq, newlinesBefore_append]
  have hl := lineStart_at a (currentLine p ++ q) ha
  rw [← List.append_assoc, ← hp, hn] at hl
  have hb : byteLen p = byteLen a + byteLen (currentLine p) := by
    conv => lhs; rw [hp]
    simp
  have hloop := utf16Loop_eq (currentLine p) a q (byteLen p + 1) 0 (by omega)
  rw [← hp] at hloop
  simp only [Nat.add_sub_cancel, hl, Option.getD_some, hloop, Nat.zero_add]

example : (LineNumbers.new "é\na😀b".toList).lineAndUtf16Column 8 = some ⟨2, 4⟩ := by decide

/-- C08: converting a character boundary to an editor position (zero-based line and UTF-16
character, as the language server does by subtracting one from each) and back is the identity. -/
theorem byteIndex_roundtrip (p q : List Char) :
    ∃ lc, (LineNumbers.new (p ++ q)).lineAndUtf16Column (utf8Len p) = some lc ∧
      1 ≤ lc.line ∧ 1 ≤ lc.column ∧
      (LineNumbers.new (p ++ q)).byteIndex (lc.line - 1) (lc.column - 1) = some (utf8Len p) := by
  refine ⟨_, utf16_line_column_spec p q, by simp, by simp, ?_⟩
  obtain ⟨a, hp, hn, ha, _⟩ := split_line p
  have hl := lineStart_at a (currentLine p ++ q) ha
  rw [← List.append_assoc, ← hp, hn] at hl
  have hloop := byteIndexLoop_eq (currentLine p) a q (utf16Len (currentLine p) + 1) 0 (by omega)
  rw [← hp, Nat.zero_add] at hloop
  simp only [Nat.add_sub_cancel, LineNumbers.byteIndex, hl, hloop, ← byteLen_eq]

/-- C08, the other direction: a position given as "line number of completed lines, UTF-16 length of
a prefix of that line" denotes the boundary after that prefix. -/
theorem byteIndex_spec (p q : List Char) :
    (LineNumbers.new (p ++ q)).byteIndex (newlines p) (utf16Len (currentLine p)) =
      some (utf8Len p) := by
  obtain ⟨lc, h, _, _, h2⟩ := byteIndex_roundtrip p q
  rw [utf16_line_column_spec] at h
  cases h
  simpa using h2

example : (LineNumbers.new "é\na😀b".toList).byteIndex 1 3 = some 8 := by decide

/-- C45 (partial): an editor position on a line past the end of the text means the end of the text. -/
theorem byteIndex_past_last_line_partial (src : List Char) (line character : Nat)
    (h : newlines src < line) :
    (LineNumbers.new src).byteIndex line character = some (utf8Len src) := by
  unfold LineNumbers.byteIndex
  have : (LineNumbers.new src).lineStarts[line]? = none := by
    rw [List.getElem?_eq_none_iff, lineStarts_eq, List.length_cons, length_starts]; omega
  rw [this]
  simp [LineNumbers.new, byteLen_eq]

example : newlines "a\nb".toList < 7 := by decide

/-- C45 is false of the code: a character past the end of a line is not clamped to the line's length, as
the LSP specification requires; the index runs into the following lines and even past the end. -/
theorem byteIndex_column_not_clamped :
    (LineNumbers.new "a\nb".toList).byteIndex 0 2 = some 2 ∧
    (LineNumbers.new "a\nb".toList).byteIndex 0 9 = some 9 := by decide

/-- C44: the merge contains both spans and is contained in every span containing both. -/
theorem merge_least (s t u : SrcSpan) (hs : s.start ≤ s.stop) (ht : t.start ≤ t.stop) :
    (s.merge t).containsSpan s = true ∧ (s.merge t).containsSpan t = true ∧
    (u.containsSpan s = true → u.containsSpan t = true → u.containsSpan (s.merge t) = true) := by
  simp only [SrcSpan.containsSpan, SrcSpan.contains, Bool.and_eq_true, decide_eq_true_eq]
  simp only [SrcSpan.merge]
  omega

example : SrcSpan.merge ⟨3, 5⟩ ⟨9, 12⟩ = ⟨3, 12⟩ := by decide

/-- C44: containment of (proper) spans is a partial order. -/
theorem containsSpan_partial_order :
    (∀ s : SrcSpan, s.start ≤ s.stop → s.containsSpan s = true) ∧
    (∀ s t : SrcSpan, s.containsSpan t = true → t.containsSpan s = true → s = t) ∧
    (∀ s t u : SrcSpan, s.containsSpan t = true → t.containsSpan u = true → s.containsSpan u = true) := by
  simp only [SrcSpan.containsSpan, SrcSpan.contains, Bool.and_eq_true, decide_eq_true_eq]
  refine ⟨fun s h => by omega, fun s t h1 h2 => ?_, fun s t u h1 h2 => by omega⟩
  cases s; cases t; simp at *; omega

/-- C44: a byte is in the merge of two overlapping (or touching) spans iff it is in one of them. -/
theorem merge_exact (s t : SrcSpan) (hs : s.start ≤ s.stop) (ht : t.start ≤ t.stop)
    (h1 : s.start ≤ t.stop) (h2 : t.start ≤ s.stop) (i : Nat) :
    (s.merge t).contains i = true ↔ s.contains i = true ∨ t.contains i = true := by
  simp only [SrcSpan.contains, Bool.and_eq_true, decide_eq_true_eq]
  simp only [SrcSpan.merge]
  omega

/-- C46: a span "spans an entire line" iff it begins right after a newline (or at the start of the
text) and ends right before a newline. -/
theorem spansEntireLine_spec (src : List Char) (span : SrcSpan) :
    (LineNumbers.new src).spansEntireLine span = true ↔
      (span.start = 0 ∨ ∃ p q, src = p ++ '\n' :: q ∧ span.start = utf8Len p + 1) ∧
      (∃ p q, src = p ++ '\n' :: q ∧ span.stop = utf8Len p) := by
  have mem : ∀ (k : Nat) (s : List Char) (x : Nat), x ∈ starts k s ↔ ∃ p q, s = p ++ '\n' :: q ∧ x = k + byteLen p + 1 := by
    intro k s x
    induction s generalizing k with
    | nil => simp [starts, charIndices]
    | cons c cs ih =>
      rw [starts_cons, List.mem_append, ih]
      constructor
      · rintro (h | ⟨p, q, rfl, rfl⟩)
        · split at h
          · rename_i hc; simp at h; subst hc; exact ⟨[], cs, rfl, by simp [byteLen, h]⟩
          · simp at h
        · exact ⟨c :: p, q, rfl, by simp [byteLen]; omega⟩
      · rintro ⟨p, q, hs, rfl⟩
        cases p with
        | nil => simp at hs; left; simp [hs.1, byteLen]
        | cons d p =>
          simp at hs
          right; exact ⟨p, q, hs.2, by simp [byteLen, hs.1]; omega⟩
  unfold LineNumbers.spansEntireLine
  rw [List.any_eq_true]
  simp only [Bool.and_eq_true, beq_iff_eq, List.contains_iff_mem, lineStarts_eq, List.mem_cons, mem,
    ← byteLen_eq]
  constructor
  · rintro ⟨x, hx, rfl, h | ⟨p, q, hs, h⟩⟩
    · omega
    · refine ⟨?_, p, q, hs, by omega⟩
      rcases hx with h | ⟨p, q, hs, h⟩
      · left; exact h
      · right; exact ⟨p, q, hs, by omega⟩
  · rintro ⟨h1, p, q, hs, h⟩
    refine ⟨_, ?_, rfl, Or.inr ⟨p, q, hs, by omega⟩⟩
    rcases h1 with h | ⟨p, q, hs, h⟩
    · left; exact h
    · right; exact ⟨p, q, hs, by omega⟩

example : (LineNumbers.new "ab\ncd\n".toList).spansEntireLine ⟨3, 5⟩ = true := by decide

end Verif.SrcSpan
