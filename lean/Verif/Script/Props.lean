import Verif.Script.Lemmas

/-!
# C44, C45: monitor-run and monitor-link
-/

namespace Libmonitor.Script

open Spec

/-! ### C44 -/

theorem absFile_ne {e : RunEnv} {f : Word} (h : f ≠ []) : absFile e f ≠ [] := by
  unfold absFile
  split
  · exact h
  · simp

/-- C44: a command line of the documented form runs exactly the words after the options,
unchanged and in order. -/
theorem C44_runs_command (e : RunEnv) (opts : List RunOpt) (dd : Bool) (cmd : List Word)
    (hc : CommandOk dd cmd) (hf : ∀ f ∈ runFiles opts, f ≠ [] ∧ e.isFile (absFile e f) = true)
    (hm : e.isFile e.libmonitor = true) :
    ∃ ld, monitorRun e (opts.flatMap RunOpt.words ++ marker dd ++ cmd) =
      .exec cmd ld (runDebug opts) := by
  rw [monitorRun, List.append_assoc, runParse_opts e _ opts _ _ hf, runParse_tail e _ _ dd cmd hc]
  cases cmd with
  | nil => exact hc.elim
  | cons w ws =>
    exact ⟨[] ++ (runFiles opts).flatMap (fun f => ':' :: absFile e f) ++ ':' :: e.libmonitor ++
      ':' :: e.ldPreload, by simp only [runFinish, hc.1, if_false, hm, if_true, Bool.false_or]⟩

/-- C44: conversely, if monitor-run runs something, the command line was of that form and the
words run are the ones after the options. -/
theorem C44_runs_only (e : RunEnv) (args argv : List Word) (ld : Word) (d : Bool)
    (h : monitorRun e args = .exec argv ld d) :
    ∃ opts dd, args = opts.flatMap RunOpt.words ++ marker dd ++ argv ∧ CommandOk dd argv ∧
      d = runDebug opts := by
  obtain ⟨opts, dd, ha, hc, hf, hm⟩ := runParse_sound e args.length args (Nat.le_refl _)
    _ _ _ _ _ h
  refine ⟨opts, dd, ha, hc, ?_⟩
  obtain ⟨ld', h'⟩ := C44_runs_command e opts dd argv hc hf hm
  rw [← ha, h, RunRes.exec.injEq] at h'
  exact h'.2.2

theorem fields_preload : ∀ (files : List Word) (tail : Word),
    (∀ f ∈ files, f ≠ [] ∧ ∀ c ∈ f, ldSep c = false) → ∀ hd : Word,
    fields ldSep (hd ++ files.flatMap (fun f => ':' :: f) ++ ':' :: tail) =
      fields ldSep hd ++ files ++ fields ldSep tail
  | [], tail, _, hd => by
    simp only [List.flatMap_nil, List.append_nil]
    exact fields_sep (by decide) hd tail
  | f :: files, tail, h, hd => by
    have hf := h f (by simp)
    have e : hd ++ (f :: files).flatMap (fun f => ':' :: f) ++ ':' :: tail =
        (hd ++ ':' :: f) ++ files.flatMap (fun f => ':' :: f) ++ ':' :: tail := by simp
    rw [e, fields_preload files tail (fun g hg => h g (by simp [hg])), fields_sep (by decide),
      fields_clean hf.2 hf.1]
    simp

/-- C44, the part that holds: the dynamic linker preloads the client libraries in command-line
order, then libmonitor, then what LD_PRELOAD named before, if no library name contains a colon or a
space.  Missing: such names, see `C44_preload_split_violates`. -/
theorem C44_preload_order_partial (e : RunEnv) (opts : List RunOpt) (dd : Bool) (cmd : List Word)
    (hc : CommandOk dd cmd)
    (hf : ∀ f ∈ runFiles opts, f ≠ [] ∧ e.isFile (absFile e f) = true)
    (hm : e.isFile e.libmonitor = true)
    (hclean : ∀ f ∈ runFiles opts, ∀ c ∈ absFile e f, ldSep c = false)
    (hlib : e.libmonitor ≠ [] ∧ ∀ c ∈ e.libmonitor, ldSep c = false) :
    ∃ ld, monitorRun e (opts.flatMap RunOpt.words ++ marker dd ++ cmd) =
        .exec cmd ld (runDebug opts) ∧
      fields ldSep ld =
        (runFiles opts).map (absFile e) ++ [e.libmonitor] ++ fields ldSep e.ldPreload := by
  obtain ⟨ld, h⟩ := C44_runs_command e opts dd cmd hc hf hm
  refine ⟨ld, h, ?_⟩
  rw [monitorRun, List.append_assoc, runParse_opts e _ opts _ _ hf, runParse_tail e _ _ dd cmd hc]
    at h
  obtain ⟨-, -, hld, -⟩ := runFinish_exec h
  rw [hld, List.nil_append]
  have e1 : ((runFiles opts).flatMap fun f => ':' :: absFile e f) =
      ((runFiles opts).map (absFile e)).flatMap (fun f => ':' :: f) := by
    rw [List.flatMap_map]
  rw [e1]
  have := fields_preload ((runFiles opts).map (absFile e)) (e.libmonitor ++ ':' :: e.ldPreload)
    (by
      intro f hf'
      obtain ⟨g, hg, rfl⟩ := List.mem_map.1 hf'
      exact ⟨absFile_ne (hf g hg).1, hclean g hg⟩) []
  simp only [List.nil_append, List.append_assoc, List.cons_append] at this ⊢
  rw [this, fields_sep (by decide), fields_clean hlib.2 hlib.1]
  simp [fields, fieldsAux]

/-- C44: with no client library and nothing in LD_PRELOAD, the linker still gets libmonitor. -/
theorem C44_preload_has_libmonitor (e : RunEnv) (args argv : List Word) (ld : Word) (d : Bool)
    (h : monitorRun e args = .exec argv ld d)
    (hlib : e.libmonitor ≠ [] ∧ ∀ c ∈ e.libmonitor, ldSep c = false) :
    e.libmonitor ∈ fields ldSep ld := by
  obtain ⟨opts, dd, ha, hc, hf, hm⟩ := runParse_sound e args.length args (Nat.le_refl _)
    _ _ _ _ _ h
  rw [monitorRun, ha, List.append_assoc, runParse_opts e _ opts _ _ hf,
    runParse_tail e _ _ dd argv hc] at h
  obtain ⟨-, -, hld, -⟩ := runFinish_exec h
  rw [hld, List.append_assoc, List.cons_append, fields_sep (by decide), fields_sep (by decide),
    fields_clean hlib.2 hlib.1]
  simp

def sampleRunEnv : RunEnv where
  pwd := lit "/home/u"
  isFile := fun f => f == lit "/home/u/a.so" || f == lit "/opt/b.so" || f == lit "/l/m.so" ||
    f == lit "/home/u/x:y.so"
  libmonitor := lit "/l/m.so"
  ldPreload := lit "/p/q.so"

example : monitorRun sampleRunEnv [lit "-i", lit "a.so", lit "-d", lit "--insert", lit "/opt/b.so",
      lit "--", lit "prog", lit "-i", lit "", lit "x y"] =
    .exec [lit "prog", lit "-i", lit "", lit "x y"]
      (lit ":/home/u/a.so:/opt/b.so:/l/m.so:/p/q.so") true ∧
    fields ldSep (lit ":/home/u/a.so:/opt/b.so:/l/m.so:/p/q.so") =
      [lit "/home/u/a.so", lit "/opt/b.so", lit "/l/m.so", lit "/p/q.so"] ∧
    CommandOk true [lit "prog", lit "-i", lit "", lit "x y"] := by
  refine ⟨by decide +kernel, by decide +kernel, by decide, by decide⟩

/-- C44 is false for library names with a colon (or a space): an existing client library is
accepted, but the dynamic linker is told to load two other names. -/
theorem C44_preload_split_violates : ∃ (e : RunEnv) (f : Word) (cmd : List Word) (ld : Word),
    e.isFile (absFile e f) = true ∧ monitorRun e (lit "-i" :: f :: cmd) = .exec cmd ld false ∧
    absFile e f ∉ fields ldSep ld :=
  ⟨sampleRunEnv, lit "x:y.so", [lit "prog"], lit ":/home/u/x:y.so:/l/m.so:/p/q.so",
    by decide +kernel, by decide +kernel, by decide +kernel⟩

/-! ### C45 -/

/-- Characters of shell patterns. -/
def isMeta (c : Char) : Bool := c == '*' || c == '?' || c == '['

/-- Pathname expansion leaves words without pattern characters alone. -/
def GlobOk (e : LinkEnv) : Prop := ∀ w, (∀ c ∈ w, isMeta c = false) → e.glob w = [w]

/-- A word that unquoted expansion leaves alone. -/
def Clean (w : Word) : Prop := w ≠ [] ∧ ∀ c ∈ w, ifs c = false ∧ isMeta c = false

theorem expand_sep (e : LinkEnv) (a b : Word) :
    e.expand (a ++ ' ' :: b) = e.expand a ++ e.expand b := by
  simp [LinkEnv.expand, fields_sep (show ifs ' ' = true by decide)]

theorem expand_nil (e : LinkEnv) : e.expand [] = [] := rfl

/-- C45: whatever the words are, if monitor-link runs something then: the command line was of the
documented form; what runs is the expansion of the command, then wrapper options, then all the
arguments unchanged and in order, then the client inputs, then libmonitor.  So wrapper options never
come without libmonitor. -/
theorem C45_shape (e : LinkEnv) (line argv : List Word) (h : monitorLink e line = .exec argv) :
    ∃ opts dd command args libs,
      line = opts.flatMap LinkOpt.words ++ marker dd ++ command :: args ∧ args ≠ [] ∧
      argv = e.expand command ++
        e.expand (accum (lit "-Wl,--wrap=") (e.expand e.wrapList ++
          (linkWraps opts).flatMap e.expand)) ++
        e.expand (accum (lit "-Wl,--undefined=__wrap_") ((linkUndefs opts).flatMap e.expand)) ++
        args ++ (linkInserts opts).flatMap e.expand ++ e.expand e.libmonitor ++ libs ∧
      libs = (args.filter isLib).flatMap e.expand := by
  have acc : ∀ l : List Word, e.expand (accum [] l) = l.flatMap e.expand := by
    intro l
    induction l with
    | nil => rfl
    | cons x l ih =>
      have : accum [] (x :: l) = [] ++ ' ' :: (x ++ accum [] l) := by simp [accum]
      rw [this, expand_sep]
      cases l with
      | nil => simp [accum, expand_nil]
      | cons y l =>
        have e2 : x ++ accum [] (y :: l) = x ++ ' ' :: (y ++ accum [] l) := by simp [accum]
        have e3 : accum [] (y :: l) = [] ++ ' ' :: (y ++ accum [] l) := by simp [accum]
        rw [e2, expand_sep]
        rw [e3, expand_sep, expand_nil, List.nil_append] at ih
        rw [ih, List.flatMap_cons, List.flatMap_cons, expand_nil, List.nil_append,
          List.flatMap_cons]
  obtain ⟨opts, dd, c, a, r, ha, hf, hne, hx⟩ := linkParse_sound e line.length line (Nat.le_refl _)
    _ _ h
  refine ⟨opts, dd, c, a :: r, _, ha, by simp, ?_, rfl⟩
  rw [linkFinish] at hx
  simp only [hne, if_false, LinkRes.exec.injEq] at hx
  rw [← hx]
  simp only [LinkOpts.add, List.nil_append, acc]
  rw [List.append_assoc (accum [] (linkInserts opts)), List.cons_append, expand_sep, expand_nil,
    expand_sep, expand_sep, acc, acc]
  simp only [List.append_assoc, List.append_nil]

/-- C45, the part that holds: if no name contains white space or pattern characters, the
command that runs is exactly: the command, one wrapper option per name, all the arguments in
order and unchanged, every client input exactly once in command-line order, libmonitor, and a second
copy of the application's `-l` arguments.  Missing: other names, see
`C45_insert_split_violates`. -/
theorem C45_link_line_partial (e : LinkEnv) (hg : GlobOk e) (names : List Word)
    (hnames : fields ifs e.wrapList = names) (opts : List LinkOpt) (dd : Bool) (command : Word)
    (a : Word) (rest : List Word) (hc : CommandOk dd (command :: a :: rest)) (ha : a ≠ [])
    (h1 : ∀ w ∈ linkInserts opts ++ linkUndefs opts ++ linkWraps opts ++ names ++
      (a :: rest).filter isLib ++ [command, e.libmonitor], Clean w) :
    monitorLink e (opts.flatMap LinkOpt.words ++ marker dd ++ command :: a :: rest) =
      .exec (command ::
        (names ++ linkWraps opts).map (fun n => lit "-Wl,--wrap=" ++ n) ++
        (linkUndefs opts).map (fun n => lit "-Wl,--undefined=__wrap_" ++ n) ++
        (a :: rest) ++ linkInserts opts ++ [e.libmonitor] ++ (a :: rest).filter isLib) := by
  simp only [List.mem_append] at h1
  have exp1 : ∀ w, Clean w → e.expand w = [w] := by
    intro w hw
    simp [LinkEnv.expand, fields_clean (fun c hc => (hw.2 c hc).1) hw.1,
      hg w (fun c hc => (hw.2 c hc).2)]
  have expL : ∀ l : List Word, (∀ w ∈ l, Clean w) → l.flatMap e.glob = l := by
    intro l
    induction l with
    | nil => intro _; rfl
    | cons x l ih =>
      intro h
      rw [List.flatMap_cons, hg x (fun c hc => ((h x (by simp)).2 c hc).2),
        ih (fun w hw => h w (by simp [hw]))]
      rfl
  have expA : ∀ pfx : Word, (∀ c ∈ pfx, ifs c = false ∧ isMeta c = false) → ∀ l : List Word,
      (∀ w ∈ l, Clean w) → e.expand (accum pfx l) = l.map (fun x => pfx ++ x) := by
    intro pfx hp l hl
    rw [LinkEnv.expand, fields_accum' pfx (fun c hc => (hp c hc).1) l (fun x hx =>
      ⟨fun c hc => ((hl x hx).2 c hc).1, fun k => (hl x hx).1 (List.append_eq_nil_iff.1 k).2⟩)]
    apply expL
    intro w hw
    obtain ⟨x, hx, rfl⟩ := List.mem_map.1 hw
    refine ⟨fun k => (hl x hx).1 (List.append_eq_nil_iff.1 k).2, ?_⟩
    intro c hc
    rcases List.mem_append.1 hc with hc | hc
    · exact hp c hc
    · exact (hl x hx).2 c hc
  have expN : e.expand e.wrapList = names := by
    rw [LinkEnv.expand, hnames]
    exact expL names (fun w hw => h1 w (by simp [hw]))
  have hI : ∀ w ∈ linkInserts opts, Clean w := fun w hw => h1 w (by simp [hw])
  have hU : ∀ w ∈ linkUndefs opts, Clean w := fun w hw => h1 w (by simp [hw])
  have hW : ∀ w ∈ linkWraps opts, Clean w := fun w hw => h1 w (by simp [hw])
  have hL : ∀ w ∈ (a :: rest).filter isLib, Clean w := fun w hw => h1 w (Or.inl (Or.inr hw))
  have id' : ∀ l : List Word, l.map (fun x => ([] : Word) ++ x) = l := by simp
  have e0 : ∀ l : List Word, (∀ w ∈ l, Clean w) → e.expand (accum [] l) = l := by
    intro l hl; rw [expA [] (by simp) l hl, id']
  rw [monitorLink, List.append_assoc, linkParse_opts e _ opts _ ?_, linkParse_tail e _ dd _ hc,
    linkFinish]
  · simp only [ha, if_false, LinkOpts.add, List.nil_append, LinkRes.exec.injEq]
    rw [expN, e0 _ hW, e0 _ hU, exp1 command (h1 command (by simp)),
      expA _ (by decide) (names ++ linkWraps opts) (by
        intro w hw
        rcases List.mem_append.1 hw with hw | hw
        · exact h1 w (by simp [hw])
        · exact hW w hw),
      expA _ (by decide) _ hU,
      List.append_assoc (accum [] (linkInserts opts)), List.cons_append (a := ' '), expand_sep,
      expand_nil, expand_sep, expand_sep, e0 _ hI, e0 _ hL, exp1 e.libmonitor (h1 _ (by simp))]
    simp only [List.append_assoc, List.cons_append, List.nil_append, List.append_nil]
  · intro f hf
    refine (h1 f ?_).1
    simp only [List.mem_append] at hf
    rcases hf with (hf | hf) | hf <;> simp [hf]

def sampleLinkEnv : LinkEnv where
  libmonitor := lit "/l/w.a"
  wrapList := lit "main fork"
  glob := fun w => [w]

example : monitorLink sampleLinkEnv [lit "-i", lit "t.o", lit "-w", lit "f", lit "cc", lit "a b.o",
      lit "-lm", lit "-o", lit ""] =
    .exec [lit "cc", lit "-Wl,--wrap=main", lit "-Wl,--wrap=fork", lit "-Wl,--wrap=f",
      lit "a b.o", lit "-lm", lit "-o", lit "", lit "t.o", lit "/l/w.a", lit "-lm"] ∧
    GlobOk sampleLinkEnv ∧ fields ifs sampleLinkEnv.wrapList = [lit "main", lit "fork"] ∧
    (∀ w ∈ [lit "t.o", lit "f", lit "main", lit "fork", lit "-lm", lit "cc", lit "/l/w.a"],
      Clean w) := by
  refine ⟨by decide +kernel, fun w _ => rfl, by decide +kernel, ?_⟩
  unfold Clean
  decide +kernel

/-- C45 is false for client inputs with a space in their name: the input is not on the link
line; two other words are. -/
theorem C45_insert_split_violates : ∃ (e : LinkEnv) (f : Word) (argv : List Word), GlobOk e ∧
    monitorLink e [lit "-i", f, lit "cc", lit "a.o"] = .exec argv ∧ f ∉ argv :=
  ⟨sampleLinkEnv, lit "my tool.o",
    [lit "cc", lit "-Wl,--wrap=main", lit "-Wl,--wrap=fork", lit "a.o", lit "my", lit "tool.o",
      lit "/l/w.a"], fun _ _ => rfl, by decide +kernel, by decide +kernel⟩

end Libmonitor.Script
