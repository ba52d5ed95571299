import Verif.ErlText.RunAll
import Verif.ErlText.LexAll
import Verif.ErlText.ParseAll

/-! # Forms and modules -/

namespace Verif.ErlText

open Read

/-- The text of a form. -/
def Form.text : Form → Text
  | .export_ names =>
    if names.isEmpty then [] else "-export([".toList ++ commaSeparated (exportItems names) ++ "]).\n".toList
  | .exportType names =>
    if names.isEmpty then [] else "-export_type([".toList ++ commaSeparated (exportItems names) ++ "]).\n".toList
  | .doc content => "\n-doc(".toList ++ content.show ++ ").".toList
  | .moduledoc content => "-moduledoc(".toList ++ content.show ++ ").\n".toList
  | .compile arguments => "-compile([".toList ++ commaSeparated arguments ++ "]).\n".toList
  | .file path line => "\n-file(\"".toList ++ path ++ "\", ".toList ++ Decimal.showNat line ++ ").".toList
  | .function name parameters body =>
    "\n".toList ++ quoteAtomName name ++ "(".toList ++ commaSeparated parameters ++ ") ->".toList ++
      textAll .expression (statementStart true INDENT) (statementStart false INDENT) INDENT body ++ ".\n".toList

theorem text_export (names : List (Text × Nat)) : Form.text (.export_ names) =
    if names.isEmpty then [] else "-export([".toList ++ commaSeparated (exportItems names) ++ "]).\n".toList := rfl
theorem text_exportType (names : List (Text × Nat)) : Form.text (.exportType names) =
    if names.isEmpty then [] else "-export_type([".toList ++ commaSeparated (exportItems names) ++ "]).\n".toList := rfl
theorem text_doc (content : Doc) : Form.text (.doc content) = "\n-doc(".toList ++ content.show ++ ").".toList := rfl
theorem text_moduledoc (content : Doc) : Form.text (.moduledoc content) =
    "-moduledoc(".toList ++ content.show ++ ").\n".toList := rfl
theorem text_compile (arguments : List Text) : Form.text (.compile arguments) =
    "-compile([".toList ++ commaSeparated arguments ++ "]).\n".toList := rfl
theorem text_file (path : Text) (line : Nat) : Form.text (.file path line) =
    "\n-file(\"".toList ++ path ++ "\", ".toList ++ Decimal.showNat line ++ ").".toList := rfl
theorem text_function (name : Text) (parameters : List Text) (body : List Term) :
    Form.text (.function name parameters body) =
      "\n".toList ++ quoteAtomName name ++ "(".toList ++ commaSeparated parameters ++ ") ->".toList ++
      textAll .expression (statementStart true INDENT) (statementStart false INDENT) INDENT body ++ ".\n".toList := rfl

def formsText : List Form → Text
  | [] => []
  | f :: fs => f.text ++ formsText fs

theorem flush_top (c : Text) (i : Nat) : Builder.flush ⟨c, [], i⟩ = ⟨c, [], i⟩ := by
  simp [Builder.flush, popLeftover]

theorem runF_form (f : Form) (h : f.Ok) (c : Text) :
    Builder.runF ⟨c, [], 0⟩ f.calls = some ⟨c ++ f.text, [], 0⟩ := by
  cases f with
  | export_ names =>
    cases names with
    | nil => simp [Form.calls, runF_cons, runF_nil, Builder.call, Builder.topLevel, flush_top, text_export]
    | cons n names =>
      simp only [Form.calls, runF_cons, runF_nil, Builder.call, Builder.topLevel, flush_top, text_export, List.isEmpty_cons,
        Bool.false_eq_true, if_false, Option.map_some, Option.bind_some, Builder.push]
  | exportType names =>
    cases names with
    | nil => simp [Form.calls, runF_cons, runF_nil, Builder.call, Builder.topLevel, flush_top, text_exportType]
    | cons n names =>
      simp only [Form.calls, runF_cons, runF_nil, Builder.call, Builder.topLevel, flush_top, text_exportType, List.isEmpty_cons,
        Bool.false_eq_true, if_false, Option.map_some, Option.bind_some, Builder.push]
  | doc content =>
    simp [Form.calls, runF_cons, runF_nil, Builder.call, Builder.topLevel, flush_top, text_doc, Builder.push]
  | moduledoc content =>
    simp [Form.calls, runF_cons, runF_nil, Builder.call, Builder.topLevel, flush_top, text_moduledoc, Builder.push]
  | compile arguments =>
    simp [Form.calls, runF_cons, runF_nil, Builder.call, Builder.topLevel, flush_top, text_compile, Builder.push]
  | file path line =>
    simp [Form.calls, runF_cons, runF_nil, Builder.call, Builder.topLevel, flush_top, text_file, Builder.push]
  | function name parameters body =>
    simp only [Form.Ok] at h
    have hts : ∀ t ∈ body, Prints .expression t := fun t ht => t.prints _ (lex_memAll h.2.2.2 t ht)
    have hr := run_items (container_function INDENT) body hts true
      (c ++ ("\n".toList ++ quoteAtomName name ++ "(".toList ++ commaSeparated parameters ++ ") ->".toList)) []
    simp only [if_true, Bool.true_and] at hr
    simp only [Form.calls, List.singleton_append, List.cons_append, runF_cons, runF_append, bind_runF_nil,
      Builder.call, Builder.topLevel, flush_top, Option.map_some, Option.bind_some, Builder.enter, Builder.push,
      Builder.indent, Nat.zero_add]
    rw [flush_open _ _ _ (by simp [Open]), hr]
    simp [Builder.close, Builder.flush, popLeftover, runF_nil, text_function]

theorem runF_forms : ∀ (fs : List Form), (∀ f ∈ fs, f.Ok) → ∀ c : Text,
    Builder.runF ⟨c, [], 0⟩ (formCalls fs) = some ⟨c ++ formsText fs, [], 0⟩
  | [], _, c => by simp [formCalls, formsText, runF_nil, flush_top]
  | f :: fs, h, c => by
    simp only [formCalls, formsText, runF_append, runF_form f (h f (by simp)), Option.bind_some,
      runF_forms fs (fun g hg => h g (List.mem_cons_of_mem _ hg)), List.append_assoc]

/-- The text of a module. -/
theorem printModule_text (name : Text) (fs : List Form) (h : ∀ f ∈ fs, f.Ok) :
    printModule name (formCalls fs) =
      some ("-module(".toList ++ quoteAtomName name ++ ").\n".toList ++ formsText fs ++ "\n".toList) := by
  have hr := runF_forms fs h ("-module(".toList ++ quoteAtomName name ++ ").\n".toList)
  unfold printModule Builder.new
  simp only [Builder.runF] at hr
  cases hb : Builder.run ⟨"-module(".toList ++ quoteAtomName name ++ ").\n".toList, [], 0⟩ (formCalls fs) with
  | none => rw [hb] at hr; cases hr
  | some b =>
    rw [hb] at hr
    simp only [Option.map_some, Option.some.injEq] at hr
    simp only [Option.bind_some, Builder.intoOutput, Builder.close, hr, Option.map_some]

/-! toks_function# Tokens -/

def commaToks : List (List Tok) → List Tok
  | [] => []
  | [x] => x
  | x :: xs => x ++ .comma :: commaToks xs

def listTerm : List Term → Term
  | [] => .nil
  | t :: ts => .cons t (listTerm ts)

def arityTerm (e : Text × Nat) : Term := .binary .fdiv (.atom e.1) (.int e.2)

def attributeToks (name : String) (arguments : List Tok) : List Tok :=
  .op .minus :: .atom name.toList :: .lparen :: (arguments ++ [.rparen, .dot])

def Doc.toks : Doc → List Tok
  | .hidden => [.atom "false".toList]
  | .text content => [.sigil (docEscape content)]

def listToks (ts : List Term) : List Tok := (listTerm ts).toks .expression plain

def Form.toks : Form → List Tok
  | .export_ names => if names.isEmpty then [] else attributeToks "export" (listToks (names.map arityTerm))
  | .exportType names => if names.isEmpty then [] else attributeToks "export_type" (listToks (names.map arityTerm))
  | .doc content => attributeToks "doc" content.toks
  | .moduledoc content => attributeToks "moduledoc" content.toks
  | .compile arguments => attributeToks "compile" (listToks (arguments.map .atom))
  | .file path line => attributeToks "file" [.string path, .comma, .int line]
  | .function name parameters body =>
    .atom name :: .lparen :: (parameterToks parameters ++ .rparen :: .arrow :: (toksAll .expression true body ++ [.dot]))

theorem toks_export (names : List (Text × Nat)) : Form.toks (.export_ names) =
    if names.isEmpty then [] else attributeToks "export" (listToks (names.map arityTerm)) := rfl
theorem toks_exportType (names : List (Text × Nat)) : Form.toks (.exportType names) =
    if names.isEmpty then [] else attributeToks "export_type" (listToks (names.map arityTerm)) := rfl
theorem toks_doc (content : Doc) : Form.toks (.doc content) = attributeToks "doc" content.toks := rfl
theorem toks_moduledoc (content : Doc) : Form.toks (.moduledoc content) = attributeToks "moduledoc" content.toks := rfl
theorem toks_compile (arguments : List Text) : Form.toks (.compile arguments) =
    attributeToks "compile" (listToks (arguments.map .atom)) := rfl
theorem toks_file (path : Text) (line : Nat) : Form.toks (.file path line) =
    attributeToks "file" [.string path, .comma, .int line] := rfl
theorem toks_function (name : Text) (parameters : List Text) (body : List Term) :
    Form.toks (.function name parameters body) = .atom name :: .lparen :: (parameterToks parameters ++
      .rparen :: .arrow :: (toksAll .expression true body ++ [.dot])) := rfl

def formsToks : List Form → List Tok
  | [] => []
  | f :: fs => f.toks ++ formsToks fs

theorem listToks_comma (ts : List Term) :
    listToks ts = .lbrack :: (commaToks (ts.map fun t => t.toks .expression plain) ++ [.rbrack]) := by
  have key : ∀ ts : List Term, (listTerm ts).toks .expression { tail := true } =
      (if ts = [] then [] else .comma :: commaToks (ts.map fun t => t.toks .expression plain)) ++ [.rbrack] := by
    intro ts
    induction ts with
    | nil => simp [listTerm, Term.toks]
    | cons t ts ih =>
      simp only [listTerm, Term.toks, ih]
      cases ts <;> simp [commaToks]
  cases ts with
  | nil => simp [listToks, listTerm, Term.toks, commaToks, plain]
  | cons t ts =>
    simp only [listToks, listTerm, Term.toks, key]
    cases ts <;> simp [commaToks, plain]

theorem lex_commaSeparated : ∀ (l : List (Text × List Tok)), (∀ p ∈ l, Lexes p.1 p.2) →
    Lexes (commaSeparated (l.map Prod.fst)) (commaToks (l.map Prod.snd))
  | [], _ => fun _ _ _ hl => hl
  | [p], h => h p (by simp)
  | p :: q :: l, h => by
    intro r ts hr hl
    have ih := lex_commaSeparated (q :: l) (fun x hx => h x (List.mem_cons_of_mem _ hx)) r ts hr hl
    simp only [List.map_cons, commaSeparated, commaToks, List.append_assoc, List.cons_append] at ih ⊢
    exact h p (by simp) _ _ (good_comma _) (by simpa using lex_comma (lex_space ih))

theorem lex_attribute {w : String} {x : Text} {ts us : List Tok} {r : Text} (hw : wordOrAtom w.toList = .atom w.toList)
    (hs : ∃ c n, w.toList = c :: n ∧ isSmall c = true ∧ n.all isNameChar = true)
    (h : Lex (x ++ (')' :: '.' :: r)) (ts ++ (.rparen :: .dot :: us))) :
    Lex ('-' :: (w.toList ++ ('(' :: (x ++ (')' :: '.' :: r))))) (attributeToks w ts ++ us) := by
  have h2 := lex_words hw hs (r := '(' :: (x ++ (')' :: '.' :: r))) rfl (lex_lparen h)
  obtain ⟨c, n, he, hc, _⟩ := hs
  have hne : c ≠ '-' ∧ c ≠ '>' := by constructor <;> (rintro rfl; revert hc; decide)
  simp only [attributeToks, List.cons_append, List.append_assoc, List.nil_append]
  rw [he] at h2 ⊢
  exact lex_minus hne.1 hne.2 h2

theorem lex_closeAttribute {r : Text} {us : List Tok} (h : Lex ('\n' :: r) us) :
    Lex (')' :: '.' :: '\n' :: r) (.rparen :: .dot :: us) := lex_rparen (.tok rfl rfl h)

theorem lex_names {names : List (Text × Nat)} (h : ∀ n ∈ names, AtomText n.1) {r : Text} {us : List Tok} (hl : Lex r us) :
    Lex ('[' :: (commaSeparated (exportItems names) ++ (']' :: r))) (listToks (names.map arityTerm) ++ us) := by
  have h1 : exportItems names = (names.map fun n => ((quoteAtomName n.1 ++ "/".toList ++ Decimal.showNat n.2 : Text),
      [Tok.atom n.1, .op .slash, .int n.2])).map Prod.fst := by
    clear h hl
    induction names with
    | nil => rfl
    | cons n names ih => obtain ⟨a, b⟩ := n; simp [exportItems, ih]
  have h2 : (names.map arityTerm).map (fun t => t.toks .expression plain) =
      (names.map fun n => ((quoteAtomName n.1 ++ "/".toList ++ Decimal.showNat n.2 : Text),
      [Tok.atom n.1, .op .slash, .int n.2])).map Prod.snd := by
    simp [arityTerm, Term.toks, Ctx.restToks, plain, parenToks, intToks, BinOp.op]
  rw [listToks_comma, h1, h2]
  have := lex_commaSeparated (names.map fun n => ((quoteAtomName n.1 ++ "/".toList ++ Decimal.showNat n.2 : Text),
      [Tok.atom n.1, .op .slash, .int n.2])) (by
    intro p hp
    obtain ⟨n, hn, rfl⟩ := List.mem_map.mp hp
    exact lex_atomArity n.2 (h n hn)) (']' :: r) (.rbrack :: us) rfl (lex_rbrack hl)
  simpa using lex_lbrack this

theorem lex_atoms {names : List Text} (h : ∀ a ∈ names, atomName a = true ∧ a ∉ reserved.map String.toList) {r : Text}
    {us : List Tok} (hl : Lex r us) :
    Lex ('[' :: (commaSeparated names ++ (']' :: r))) (listToks (names.map .atom) ++ us) := by
  have h1 : names = (names.map fun n => (n, [Tok.atom n])).map Prod.fst := by simp [Function.comp_def]
  have h2 : (names.map Term.atom).map (fun t => t.toks .expression plain) =
      (names.map fun n => (n, [Tok.atom n])).map Prod.snd := by
    simp [Term.toks, Ctx.restToks, plain]
  have := lex_commaSeparated (names.map fun n => (n, [Tok.atom n])) (by
    intro p hp
    obtain ⟨n, hn, rfl⟩ := List.mem_map.mp hp
    exact fun r ts hr hl => lex_plainAtom (h n hn).2 (h n hn).1 (good_bound hr) hl) (']' :: r) (.rbrack :: us) rfl (lex_rbrack hl)
  rw [listToks_comma, h2]
  rw [← h1] at this
  simpa using lex_lbrack this

theorem lexes_doc (d : Doc) : Lexes d.show d.toks := by
  intro r us hr hl
  cases d with
  | hidden => exact lex_words (w := "false") (by decide) (lits _ (by decide)) (good_bound hr) hl
  | text c => simpa [Doc.show, Doc.toks] using lex_sigil (wellQuoted_docEscape c) (good_bound hr) hl

/-- The text of a form is scanned as its tokens. A form that does not end its line is followed by one on the next. -/
theorem lex_form (f : Form) (h : f.Ok) (r : Text) (us : List Tok) (hl : Lex r us)
    (hn : f.unfinished = true → ∃ x, r = '\n' :: x) : Lex (f.text ++ r) (f.toks ++ us) := by
  have hnl := lex_newline hl
  cases f with
  | export_ names =>
    cases hne : names.isEmpty with
    | true => simpa [text_export, toks_export, hne] using hl
    | false =>
      have := lex_attribute (w := "export") (x := '[' :: (commaSeparated (exportItems names) ++ [']'])) (by decide)
        (lits _ (by decide)) (by simpa using lex_names h (lex_closeAttribute hnl))
      simpa [text_export, toks_export, hne] using this
  | exportType names =>
    cases hne : names.isEmpty with
    | true => simpa [text_exportType, toks_exportType, hne] using hl
    | false =>
      have := lex_attribute (w := "export_type") (x := '[' :: (commaSeparated (exportItems names) ++ [']'])) (by decide)
        (lits _ (by decide)) (by simpa using lex_names h (lex_closeAttribute hnl))
      simpa [text_exportType, toks_exportType, hne] using this
  | doc d =>
    obtain ⟨x, rfl⟩ := hn rfl
    have := lex_attribute (w := "doc") (x := d.show) (by decide) (lits _ (by decide))
      (lexes_doc d (')' :: '.' :: '\n' :: x) _ rfl (lex_closeAttribute hl))
    simpa [text_doc, toks_doc] using lex_newline this
  | moduledoc d =>
    have := lex_attribute (w := "moduledoc") (x := d.show) (by decide) (lits _ (by decide))
      (lexes_doc d (')' :: '.' :: '\n' :: r) _ rfl (lex_closeAttribute hnl))
    simpa [text_moduledoc, toks_moduledoc] using this
  | compile arguments =>
    have := lex_attribute (w := "compile") (x := '[' :: (commaSeparated arguments ++ [']'])) (by decide)
        (lits _ (by decide)) (by simpa using lex_atoms h (lex_closeAttribute hnl))
    simpa [text_compile, toks_compile] using this
  | file path line =>
    obtain ⟨x, rfl⟩ := hn rfl
    have h1 := lex_nat line (r := ')' :: '.' :: '\n' :: x) rfl (lex_closeAttribute hl)
    have h2 := lex_string h (lex_comma (lex_space h1))
    have := lex_attribute (w := "file") (x := '"' :: path ++ '"' :: ',' :: ' ' :: Decimal.showNat line)
      (ts := [.string path, .comma, .int line]) (by decide) (lits _ (by decide)) (by simpa using h2)
    simpa [text_file, toks_file] using lex_newline this
  | function name parameters body =>
    simp only [Form.Ok] at h
    have h1 := lex_body INDENT (lexesAll .expression body h.2.2.2) ('.' :: '\n' :: r) _ rfl (lex_dot hl)
    have h2 := lexes_parameters parameters h.2.1 (") ->".toList ++ _) _ (by simp [good, goodChar]) (lex_parenArrow h1)
    have h3 := lex_atom h.1 rfl (lex_lparen h2)
    have := lex_newline h3
    simpa [text_function, toks_function] using this

theorem formsText_newline {fs : List Form} {x : Text} (h : fs = [] ∨ ∃ g gs, fs = g :: gs ∧ g.startsLine = true) :
    ∃ y, formsText fs ++ ('\n' :: x) = '\n' :: y := by
  rcases h with rfl | ⟨g, gs, rfl, hg⟩
  · exact ⟨x, rfl⟩
  · cases g with
    | doc d => simp [formsText, text_doc]
    | file p l => simp [formsText, text_file]
    | function n ps b => simp [formsText, text_function]
    | export_ _ => cases hg
    | exportType _ => cases hg
    | moduledoc _ => cases hg
    | compile _ => cases hg

theorem lex_forms : ∀ (fs : List Form), FormsOk fs → Lex (formsText fs ++ "\n".toList) (formsToks fs)
  | [], _ => by simpa [formsText, formsToks] using lex_newline .nil
  | [f], h => by
    have := lex_form f h ['\n'] [] (lex_newline .nil) (fun _ => ⟨_, rfl⟩)
    simpa [formsText, formsToks] using this
  | f :: g :: fs, h => by
    simp only [FormsOk] at h
    have ih := lex_forms (g :: fs) h.2.2
    have := lex_form f h.1 _ _ ih (fun hu => by
      simpa using formsText_newline (x := []) (Or.inr ⟨g, fs, rfl, h.2.1 hu⟩))
    simpa [formsText, formsToks] using this

/-! toks_compile# Reading forms -/

theorem ev_attribute {w : String} {ts us : List Tok} {es : List Ast} (h : Ev expressions (ts ++ .rparen :: .dot :: us) (es, .rparen :: .dot :: us)) :
    Ev form (attributeToks w ts ++ us) (.attribute w.toList es, us) := by
  obtain ⟨n, hn⟩ := h
  refine ⟨n, fun m hm => ?_⟩
  have hn := hn m hm
  simp only [attributeToks, List.cons_append, List.append_assoc, List.nil_append, form, hn]

theorem listTerm_ok {ts : List Term} (h : ∀ t ∈ ts, t.Ok .expression) : (listTerm ts).Ok .expression := by
  induction ts with
  | nil => simp [listTerm, Term.Ok]
  | cons t ts ih =>
    simp only [listTerm, Term.Ok]
    exact ⟨h t (by simp), ih fun u hu => h u (List.mem_cons_of_mem _ hu)⟩

theorem listTerm_ast (ts : List Term) : (listTerm ts).ast false = listAst (astAll ts) := by
  induction ts with
  | nil => simp [listTerm, Term.ast, astAll, listAst]
  | cons t ts ih => simp [listTerm, Term.ast, astAll, listAst, ih]

theorem ev_list {ts : List Term} (h : ∀ t ∈ ts, t.Ok .expression) (r : List Tok) (hr : closes r = true) :
    Ev expressions (listToks ts ++ r) ([listAst (astAll ts)], r) := by
  have := ((listTerm ts).parses .expression (listTerm_ok h)).expr false 0 r (by omega) (closes_follow hr)
  rw [← listTerm_ast]
  exact ev_last this hr

theorem astAll_arity (names : List (Text × Nat)) : astAll (names.map arityTerm) = names.map nameAndArity := by
  induction names with
  | nil => rfl
  | cons n names ih => simp [astAll, arityTerm, Term.ast, nameAndArity, BinOp.op, ih]

theorem astAll_atom (names : List Text) : astAll (names.map .atom) = names.map .atom := by
  induction names with
  | nil => rfl
  | cons n names ih => simp [astAll, Term.ast, ih]

theorem docEscape_escaped (s : Text) : docEscape s = escaped s := by
  induction s with
  | nil => rfl
  | cons c s ih =>
    have hd : docEscape (c :: s) = (if c = '\\' then ['\\', '\\'] else if c = '"' then ['\\', '"'] else [c]) ++ docEscape s := by
      simp [docEscape]
    rw [hd, ih]
    by_cases h1 : c = '\\'
    · subst h1; simp [escaped]
    · by_cases h2 : c = '"'
      · subst h2; simp [escaped]
      · rw [if_neg h1, if_neg h2, escaped.eq_def (c :: s)]
        split
        · rename_i he; cases he
        · rename_i he; cases he; exact absurd rfl h1
        · rename_i he; cases he; exact absurd rfl h2
        · rename_i he; cases he; rfl

theorem ev_single {a : Tok} {e : Ast} (h : ∀ n r, Read.primary (n + 1) (a :: r) = some (e, r)) {r : List Tok} (hr : follow r = true)
    (p : Nat) : Ev (fun n => expression n p) (a :: r) (e, r) :=
  ev_expression (ev_operand (ev_application (ev_token h r) (follow_stops hr))) hr

theorem ev_doc (d : Doc) (r : List Tok) (hr : closes r = true) : Ev expressions (d.toks ++ r) ([d.ast], r) := by
  cases d with
  | hidden => exact ev_last (ev_single (fun _ _ => rfl) (closes_follow hr) 0) hr
  | text c =>
    simp only [Doc.ast, ← docEscape_escaped]
    exact ev_last (ev_single (fun _ _ => rfl) (closes_follow hr) 0) hr

theorem arityTerm_ok {names : List (Text × Nat)} (h : ∀ n ∈ names, AtomText n.1) :
    ∀ t ∈ names.map arityTerm, t.Ok .expression := by
  intro t ht
  obtain ⟨n, hn, rfl⟩ := List.mem_map.mp ht
  simp [arityTerm, Term.Ok, Term.operandLike, h n hn]

theorem atomName_text {a : Text} (h : atomName a = true) : AtomText a := by
  cases a with
  | nil => simp [atomName] at h
  | cons c cs =>
    simp only [atomName, Bool.and_eq_true, List.all_eq_true] at h
    have key : ∀ d : Char, isAtomTail d = false → isLower d = false → d ∉ c :: cs := by
      intro d h1 h2 hd
      rcases List.mem_cons.mp hd with rfl | hd
      · rw [h.1] at h2; cases h2
      · rw [h.2 d hd] at h1; cases h1
    exact ⟨key _ rfl rfl, key _ rfl rfl⟩

/-- The tokens of a form are read as its syntax tree. -/
theorem ev_form (f : Form) (h : f.Ok) (us : List Tok) :
    (f.ast = [] ∧ f.toks = []) ∨ ∃ a, f.ast = [a] ∧ Ev form (f.toks ++ us) (a, us) := by
  cases f with
  | export_ names =>
    cases names with
    | nil => exact Or.inl ⟨rfl, rfl⟩
    | cons n names =>
      refine Or.inr ⟨_, rfl, ?_⟩
      have := ev_list (arityTerm_ok h) (.rparen :: .dot :: us) rfl
      rw [astAll_arity] at this
      exact ev_attribute (w := "export") this
  | exportType names =>
    cases names with
    | nil => exact Or.inl ⟨rfl, rfl⟩
    | cons n names =>
      refine Or.inr ⟨_, rfl, ?_⟩
      have := ev_list (arityTerm_ok h) (.rparen :: .dot :: us) rfl
      rw [astAll_arity] at this
      exact ev_attribute (w := "export_type") this
  | doc d => exact Or.inr ⟨_, rfl, ev_attribute (w := "doc") (ev_doc d _ rfl)⟩
  | moduledoc d => exact Or.inr ⟨_, rfl, ev_attribute (w := "moduledoc") (ev_doc d _ rfl)⟩
  | compile arguments =>
    refine Or.inr ⟨_, rfl, ?_⟩
    have := ev_list (ts := arguments.map .atom) (by
      intro t ht
      obtain ⟨n, hn, rfl⟩ := List.mem_map.mp ht
      simp only [Term.Ok]
      exact atomName_text (h n hn).1) (.rparen :: .dot :: us) rfl
    rw [astAll_atom] at this
    exact ev_attribute (w := "compile") this
  | file path line =>
    refine Or.inr ⟨_, rfl, ev_attribute (w := "file") ?_⟩
    exact ev_more (ev_single (fun _ _ => rfl) rfl 0) (ev_last (ev_single (fun _ _ => rfl) rfl 0) rfl)
  | function name parameters body =>
    simp only [Form.Ok] at h
    refine Or.inr ⟨_, rfl, ?_⟩
    obtain ⟨n, hn⟩ := ev_items body (parsesAll .expression body h.2.2.2) h.2.2.1 (.dot :: us) rfl
    refine ⟨n, fun m hm => ?_⟩
    have hn := hn m hm
    simp only [toks_function, List.cons_append, List.append_assoc, List.nil_append, form, parameterList_toks, hn]

theorem form_head {n : Nat} {x : AstForm × List Tok} (h : form n [] = some x) : False := by simp [form] at h

theorem ev_forms_cons {ts us : List Tok} {a : AstForm} {fs : List AstForm} (h : Ev form ts (a, us)) (hs : Ev forms us fs) :
    Ev forms ts (a :: fs) := by
  obtain ⟨n1, h1⟩ := h
  obtain ⟨n2, h2⟩ := hs
  refine Ev.succ (n := n1 + n2) fun m hm => ?_
  have h1 := h1 m (by omega)
  cases ts with
  | nil => exact (form_head h1).elim
  | cons t ts => simp only [forms, h1, h2 m (by omega), Option.map_some]

theorem ev_forms : ∀ (fs : List Form), (∀ f ∈ fs, f.Ok) → Ev forms (formsToks fs) (fs.flatMap Form.ast)
  | [], _ => Ev.succ (n := 0) fun m _ => rfl
  | f :: fs, h => by
    have ih := ev_forms fs (fun g hg => h g (List.mem_cons_of_mem _ hg))
    rw [List.flatMap_cons]
    rcases ev_form f (h f (by simp)) (formsToks fs) with ⟨h1, h2⟩ | ⟨a, h1, h2⟩
    · rw [h1]; simpa [formsToks, h2] using ih
    · rw [h1]; exact ev_forms_cons h2 ih

theorem formsOk_all : ∀ {fs : List Form}, FormsOk fs → ∀ f ∈ fs, f.Ok
  | [], _ => by simp
  | [f], h => by simpa [FormsOk] using h
  | f :: g :: fs, h => by
    simp only [FormsOk] at h
    intro x hx
    rcases List.mem_cons.mp hx with rfl | hx
    · exact h.1
    · exact formsOk_all h.2.2 x hx

/-- The text of a module is read as its syntax trees. -/
theorem reads_module (name : Text) (fs : List Form) (hn : AtomText name) (h : FormsOk fs) :
    ∃ code, printModule name (formCalls fs) = some code ∧ Reads code (moduleAst name fs) := by
  refine ⟨_, printModule_text name fs (formsOk_all h), ?_⟩
  have hl := lex_forms fs h
  have h2 := lex_attribute (w := "module") (x := quoteAtomName name) (ts := [.atom name]) (r := '\n' :: (formsText fs ++ "\n".toList))
    (by decide) (lits _ (by decide)) (lex_atom hn rfl (lex_closeAttribute (lex_newline hl)))
  have hf : Ev forms (attributeToks "module" [.atom name] ++ formsToks fs) (moduleAst name fs) :=
    ev_forms_cons (ev_attribute (ev_last (ev_single (fun _ _ => rfl) rfl 0) rfl)) (ev_forms fs (formsOk_all h))
  refine ⟨_, ?_, hf⟩
  have := h2.scan
  simpa using this

end Verif.ErlText
