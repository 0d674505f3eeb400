import Verif.Script.Spec

namespace Libmonitor.Script

open Spec

variable {sep : Char → Bool}

theorem fieldsAux_sep {s : Char} (hs : sep s = true) (b : Word) : ∀ (a cur : Word),
    fieldsAux sep cur (a ++ s :: b) = fieldsAux sep cur a ++ fieldsAux sep [] b
  | [], cur => by simp [fieldsAux, hs]
  | c :: a, cur => by
    by_cases h : sep c = true
    · simp only [List.cons_append, fieldsAux, h, if_true]
      rw [fieldsAux_sep hs b a [], List.append_assoc]
    · simp only [List.cons_append, fieldsAux, h, if_false]
      exact fieldsAux_sep hs b a _

theorem fields_sep {s : Char} (hs : sep s = true) (a b : Word) :
    fields sep (a ++ s :: b) = fields sep a ++ fields sep b := fieldsAux_sep hs b a []

theorem fields_cons_sep {s : Char} (hs : sep s = true) (b : Word) :
    fields sep (s :: b) = fields sep b := by
  have := fields_sep hs [] b
  simpa [fields, fieldsAux] using this

theorem fieldsAux_clean : ∀ (w cur : Word), (∀ c ∈ w, sep c = false) →
    fieldsAux sep cur w = if cur ++ w = [] then [] else [cur ++ w]
  | [], cur, _ => by simp [fieldsAux]
  | c :: w, cur, h => by
    have hc : sep c = false := h c (by simp)
    simp only [fieldsAux, hc, Bool.false_eq_true, if_false]
    rw [fieldsAux_clean w _ (fun x hx => h x (by simp [hx]))]
    simp

theorem fields_clean {w : Word} (h : ∀ c ∈ w, sep c = false) (hne : w ≠ []) :
    fields sep w = [w] := by
  simp [fields, fieldsAux_clean w [] h, hne]

theorem lit_ne_nil_d : lit "-d" ≠ [] ∧ lit "--debug" ≠ [] ∧ lit "-i" ≠ [] ∧
    lit "--insert" ≠ [] ∧ lit "--" ≠ [] := by decide

theorem runParse_cons (e : RunEnv) (pre : Word) (dbg : Bool) (w : Word) (ws : List Word) :
    runParse e pre dbg (w :: ws) =
    if w = [] then runFinish e pre dbg (w :: ws)
    else if w = lit "-d" ∨ w = lit "--debug" then runParse e pre true ws
    else if w = lit "-h" ∨ w = lit "--help" then .usage
    else if w = lit "-i" ∨ w = lit "--insert" then
      match ws with
      | [] => .die
      | f :: ws' =>
        if f = [] then .die
        else if e.isFile (absFile e f) then runParse e (pre ++ ':' :: absFile e f) dbg ws'
        else .die
    else if w = lit "--" then runFinish e pre dbg ws
    else if isDash w then .die
    else runFinish e pre dbg (w :: ws) := by
  rw [runParse.eq_def]; rfl

theorem linkParse_cons (e : LinkEnv) (o : LinkOpts) (w : Word) (ws : List Word) :
    linkParse e o (w :: ws) =
    if w = [] then linkFinish e o (w :: ws)
    else if w = lit "-h" ∨ w = lit "--help" then .usage
    else if w = lit "-i" ∨ w = lit "--insert" then
      match ws with
      | [] => .die
      | f :: ws' =>
        if f = [] then .die else linkParse e { o with inserts := o.inserts ++ ' ' :: f } ws'
    else if w = lit "-u" ∨ w = lit "--undefined" then
      match ws with
      | [] => .die
      | f :: ws' =>
        if f = [] then .die else linkParse e { o with undefs := o.undefs ++ ' ' :: f } ws'
    else if w = lit "-v" ∨ w = lit "--verbose" then linkParse e o ws
    else if w = lit "-w" ∨ w = lit "--wrap" then
      match ws with
      | [] => .die
      | f :: ws' =>
        if f = [] then .die else linkParse e { o with wraps := o.wraps ++ ' ' :: f } ws'
    else if w = lit "--" then linkFinish e o ws
    else if isDash w then .die
    else linkFinish e o (w :: ws) := by
  rw [linkParse.eq_def]; rfl

/-- Parsing consumes exactly the options. -/
theorem runParse_opts (e : RunEnv) (tail : List Word) : ∀ (opts : List RunOpt) (pre : Word)
    (dbg : Bool), (∀ f ∈ runFiles opts, f ≠ [] ∧ e.isFile (absFile e f) = true) →
    runParse e pre dbg (opts.flatMap RunOpt.words ++ tail) =
      runParse e (pre ++ (runFiles opts).flatMap (fun f => ':' :: absFile e f))
        (dbg || runDebug opts) tail
  | [], pre, dbg, _ => by simp [runFiles, runDebug]
  | .debug l :: opts, pre, dbg, h => by
    have ih := runParse_opts e tail opts pre true h
    have e1 : runFiles (.debug l :: opts) = runFiles opts := rfl
    have e2 : (dbg || runDebug (.debug l :: opts)) = (true || runDebug opts) := by
      simp [runDebug]
    rw [e1, e2, ← ih]
    cases l <;> simp only [List.flatMap_cons, RunOpt.words, List.cons_append, List.nil_append] <;>
      rw [runParse_cons, if_neg (by decide), if_pos (by decide)]
  | .insert l f :: opts, pre, dbg, h => by
    have hf := h f (by simp [runFiles])
    have ih := runParse_opts e tail opts (pre ++ ':' :: absFile e f) dbg
      (fun g hg => h g (by simp [runFiles] at hg ⊢; exact Or.inr hg))
    have e1 : (runFiles (.insert l f :: opts)) = f :: runFiles opts := rfl
    have e2 : runDebug (.insert l f :: opts) = runDebug opts := by simp [runDebug]
    have e3 : pre ++ List.flatMap (fun f => ':' :: absFile e f) (f :: runFiles opts) =
        pre ++ ':' :: absFile e f ++
          List.flatMap (fun f => ':' :: absFile e f) (runFiles opts) := by
      simp
    rw [e1, e2, e3, ← ih]
    cases l <;> simp only [List.flatMap_cons, RunOpt.words, List.cons_append, List.nil_append] <;>
      rw [runParse_cons, if_neg (by decide), if_neg (by decide), if_neg (by decide),
        if_pos (by decide)] <;> simp [hf.1, hf.2]

theorem not_dash_lits {w : Word} (h : isDash w = false) :
    (¬ (w = lit "-d" ∨ w = lit "--debug")) ∧ (¬ (w = lit "-h" ∨ w = lit "--help")) ∧
    (¬ (w = lit "-i" ∨ w = lit "--insert")) ∧ (¬ (w = lit "-u" ∨ w = lit "--undefined")) ∧
    (¬ (w = lit "-v" ∨ w = lit "--verbose")) ∧ (¬ (w = lit "-w" ∨ w = lit "--wrap")) ∧
    w ≠ lit "--" := by
  refine ⟨?_, ?_, ?_, ?_, ?_, ?_, ?_⟩ <;>
  · intro k
    first
    | rcases k with rfl | rfl <;> exact absurd h (by decide)
    | subst k; exact absurd h (by decide)

theorem runParse_tail (e : RunEnv) (pre : Word) (dbg dd : Bool) (cmd : List Word)
    (hc : CommandOk dd cmd) : runParse e pre dbg (marker dd ++ cmd) = runFinish e pre dbg cmd := by
  cases cmd with
  | nil => exact hc.elim
  | cons w ws =>
    obtain ⟨h1, h2⟩ := hc
    cases dd with
    | true =>
      simp only [marker, List.cons_append, List.nil_append]
      rw [runParse_cons, if_neg (by decide), if_neg (by decide), if_neg (by decide),
        if_neg (by decide), if_pos rfl]
    | false =>
      have hd := h2 rfl
      obtain ⟨a1, a2, a3, _, _, _, a7⟩ := not_dash_lits hd
      simp only [marker, List.nil_append]
      rw [runParse_cons, if_neg h1, if_neg a1, if_neg a2, if_neg a3, if_neg a7,
        if_neg (by simp [hd])]

theorem runFinish_exec {e : RunEnv} {pre : Word} {dbg : Bool} {args argv : List Word} {ld : Word}
    {d : Bool} (h : runFinish e pre dbg args = .exec argv ld d) :
    argv = args ∧ d = dbg ∧ ld = pre ++ ':' :: e.libmonitor ++ ':' :: e.ldPreload ∧
      e.isFile e.libmonitor = true ∧ ∃ w ws, args = w :: ws ∧ w ≠ [] := by
  unfold runFinish at h
  cases args with
  | nil => cases h
  | cons w ws =>
    simp only at h
    by_cases k : w = []
    · rw [if_pos k] at h; cases h
    · rw [if_neg k] at h
      by_cases k2 : e.isFile e.libmonitor = true
      · rw [if_pos k2] at h
        cases h
        exact ⟨rfl, rfl, rfl, k2, w, ws, rfl, k⟩
      · rw [if_neg k2] at h; cases h

/-- If something is run, the command line had the documented form. -/
theorem runParse_sound (e : RunEnv) : ∀ (n : Nat) (args : List Word), args.length ≤ n →
    ∀ (pre : Word) (dbg : Bool) (argv : List Word) (ld : Word) (d : Bool),
    runParse e pre dbg args = .exec argv ld d →
    ∃ opts dd, args = opts.flatMap RunOpt.words ++ marker dd ++ argv ∧ CommandOk dd argv ∧
      (∀ f ∈ runFiles opts, f ≠ [] ∧ e.isFile (absFile e f) = true) ∧
      e.isFile e.libmonitor = true
  | _, [], _, pre, dbg, argv, ld, d, h => by
    rw [runParse] at h; cases h
  | 0, _ :: _, hl, _, _, _, _, _, _ => by simp at hl
  | n + 1, w :: ws, hl, pre, dbg, argv, ld, d, h => by
    have hl' : ws.length ≤ n := by simpa using hl
    rw [runParse_cons] at h
    by_cases k0 : w = []
    · rw [if_pos k0] at h
      obtain ⟨_, _, _, _, w', ws', e1, e2⟩ := runFinish_exec h
      simp only [List.cons.injEq] at e1
      exact absurd (e1.1 ▸ k0) e2
    rw [if_neg k0] at h
    by_cases k1 : w = lit "-d" ∨ w = lit "--debug"
    · rw [if_pos k1] at h
      obtain ⟨opts, dd, ha, hc, hf, hm⟩ := runParse_sound e n ws hl' _ _ _ _ _ h
      rcases k1 with rfl | rfl
      · exact ⟨.debug false :: opts, dd, by simp [RunOpt.words, ha], hc, hf, hm⟩
      · exact ⟨.debug true :: opts, dd, by simp [RunOpt.words, ha], hc, hf, hm⟩
    rw [if_neg k1] at h
    by_cases k2 : w = lit "-h" ∨ w = lit "--help"
    · rw [if_pos k2] at h; cases h
    rw [if_neg k2] at h
    by_cases k3 : w = lit "-i" ∨ w = lit "--insert"
    · rw [if_pos k3] at h
      cases ws with
      | nil => cases h
      | cons f ws' =>
        simp only at h
        by_cases kf : f = []
        · rw [if_pos kf] at h; cases h
        rw [if_neg kf] at h
        by_cases kx : e.isFile (absFile e f) = true
        · rw [if_pos kx] at h
          obtain ⟨opts, dd, ha, hc, hf, hm⟩ := runParse_sound e n ws' (by simp at hl'; omega)
            _ _ _ _ _ h
          have hf' : ∀ l, ∀ g ∈ runFiles (.insert l f :: opts),
              g ≠ [] ∧ e.isFile (absFile e g) = true := by
            intro l g hg
            have : g = f ∨ g ∈ runFiles opts := by simpa [runFiles] using hg
            rcases this with rfl | hg
            · exact ⟨kf, kx⟩
            · exact hf g hg
          rcases k3 with rfl | rfl
          · exact ⟨.insert false f :: opts, dd, by simp [RunOpt.words, ha], hc, hf' _, hm⟩
          · exact ⟨.insert true f :: opts, dd, by simp [RunOpt.words, ha], hc, hf' _, hm⟩
        · rw [if_neg kx] at h; cases h
    rw [if_neg k3] at h
    by_cases k4 : w = lit "--"
    · rw [if_pos k4] at h
      obtain ⟨e1, _, _, hm, w', ws', e2, e3⟩ := runFinish_exec h
      subst e1
      refine ⟨[], true, by simp [marker, k4], ?_, by simp [runFiles], hm⟩
      rw [e2]; exact ⟨e3, by simp⟩
    rw [if_neg k4] at h
    by_cases k5 : isDash w = true
    · rw [if_pos k5] at h; cases h
    rw [if_neg k5] at h
    obtain ⟨e1, _, _, hm, _⟩ := runFinish_exec h
    subst e1
    exact ⟨[], false, by simp [marker], ⟨k0, fun _ => by simpa using k5⟩, by simp [runFiles], hm⟩

/-! ### monitor-link -/

def LinkOpts.add (o : LinkOpts) (opts : List LinkOpt) : LinkOpts where
  inserts := o.inserts ++ accum [] (linkInserts opts)
  wraps := o.wraps ++ accum [] (linkWraps opts)
  undefs := o.undefs ++ accum [] (linkUndefs opts)

theorem linkParse_opts (e : LinkEnv) (tail : List Word) : ∀ (opts : List LinkOpt) (o : LinkOpts),
    (∀ f ∈ linkInserts opts ++ linkUndefs opts ++ linkWraps opts, f ≠ []) →
    linkParse e o (opts.flatMap LinkOpt.words ++ tail) = linkParse e (o.add opts) tail
  | [], o, _ => by simp [LinkOpts.add, linkInserts, linkUndefs, linkWraps, accum]
  | .insert l f :: opts, o, h => by
    have hf : f ≠ [] := h f (by simp [linkInserts])
    have ih := linkParse_opts e tail opts { o with inserts := o.inserts ++ ' ' :: f }
      (fun g hg => h g (by
        simp only [linkInserts, linkUndefs, linkWraps, List.mem_append, List.filterMap_cons,
          List.mem_cons] at hg ⊢
        rcases hg with (hg | hg) | hg <;> simp [hg]))
    have e1 : ({ o with inserts := o.inserts ++ ' ' :: f } : LinkOpts).add opts =
        o.add (.insert l f :: opts) := by
      simp [LinkOpts.add, linkInserts, linkUndefs, linkWraps, accum]
    rw [← e1, ← ih]
    cases l <;> simp only [List.flatMap_cons, LinkOpt.words, List.cons_append,
        List.nil_append] <;>
      rw [linkParse_cons, if_neg (by decide), if_neg (by decide), if_pos (by decide)] <;> simp [hf]
  | .undef l f :: opts, o, h => by
    have hf : f ≠ [] := h f (by simp [linkUndefs])
    have ih := linkParse_opts e tail opts { o with undefs := o.undefs ++ ' ' :: f }
      (fun g hg => h g (by
        simp only [linkInserts, linkUndefs, linkWraps, List.mem_append, List.filterMap_cons,
          List.mem_cons] at hg ⊢
        rcases hg with (hg | hg) | hg <;> simp [hg]))
    have e1 : ({ o with undefs := o.undefs ++ ' ' :: f } : LinkOpts).add opts =
        o.add (.undef l f :: opts) := by
      simp [LinkOpts.add, linkInserts, linkUndefs, linkWraps, accum]
    rw [← e1, ← ih]
    cases l <;> simp only [List.flatMap_cons, LinkOpt.words, List.cons_append,
        List.nil_append] <;>
      rw [linkParse_cons, if_neg (by decide), if_neg (by decide), if_neg (by decide),
        if_pos (by decide)] <;> simp [hf]
  | .wrap l f :: opts, o, h => by
    have hf : f ≠ [] := h f (by simp [linkWraps])
    have ih := linkParse_opts e tail opts { o with wraps := o.wraps ++ ' ' :: f }
      (fun g hg => h g (by
        simp only [linkInserts, linkUndefs, linkWraps, List.mem_append, List.filterMap_cons,
          List.mem_cons] at hg ⊢
        rcases hg with (hg | hg) | hg <;> simp [hg]))
    have e1 : ({ o with wraps := o.wraps ++ ' ' :: f } : LinkOpts).add opts =
        o.add (.wrap l f :: opts) := by
      simp [LinkOpts.add, linkInserts, linkUndefs, linkWraps, accum]
    rw [← e1, ← ih]
    cases l <;> simp only [List.flatMap_cons, LinkOpt.words, List.cons_append,
        List.nil_append] <;>
      rw [linkParse_cons, if_neg (by decide), if_neg (by decide), if_neg (by decide),
        if_neg (by decide), if_neg (by decide), if_pos (by decide)] <;> simp [hf]
  | .verbose l :: opts, o, h => by
    have ih := linkParse_opts e tail opts o h
    have e1 : o.add opts = o.add (.verbose l :: opts) := by
      simp [LinkOpts.add, linkInserts, linkUndefs, linkWraps]
    rw [← e1, ← ih]
    cases l <;> simp only [List.flatMap_cons, LinkOpt.words, List.cons_append,
        List.nil_append] <;>
      rw [linkParse_cons, if_neg (by decide), if_neg (by decide), if_neg (by decide),
        if_neg (by decide), if_pos (by decide)]

theorem linkParse_tail (e : LinkEnv) (o : LinkOpts) (dd : Bool) (cmd : List Word)
    (hc : CommandOk dd cmd) : linkParse e o (marker dd ++ cmd) = linkFinish e o cmd := by
  cases cmd with
  | nil => exact hc.elim
  | cons w ws =>
    obtain ⟨h1, h2⟩ := hc
    cases dd with
    | true =>
      simp only [marker, List.cons_append, List.nil_append]
      rw [linkParse_cons, if_neg (by decide), if_neg (by decide), if_neg (by decide),
        if_neg (by decide), if_neg (by decide), if_neg (by decide), if_pos rfl]
    | false =>
      have hd := h2 rfl
      obtain ⟨_, a2, a3, a4, a5, a6, a7⟩ := not_dash_lits hd
      simp only [marker, List.nil_append]
      rw [linkParse_cons, if_neg h1, if_neg a2, if_neg a3, if_neg a4, if_neg a5, if_neg a6,
        if_neg a7, if_neg (by simp [hd])]

/-- What the shell makes of an accumulated list. -/
theorem fields_accum (pfx : Word) (hp : ∀ c ∈ pfx, ifs c = false) : ∀ (l : List Word) (tail : Word),
    (∀ x ∈ l, (∀ c ∈ x, ifs c = false) ∧ pfx ++ x ≠ []) → ∀ hd : Word,
    fields ifs (hd ++ accum pfx l ++ ' ' :: tail) =
      fields ifs hd ++ l.map (fun x => pfx ++ x) ++ fields ifs tail
  | [], tail, _, hd => by
    simp only [accum, List.flatMap_nil, List.append_nil, List.map_nil]
    exact fields_sep (by decide) hd tail
  | x :: l, tail, h, hd => by
    have hx := h x (by simp)
    have e : hd ++ accum pfx (x :: l) ++ ' ' :: tail =
        (hd ++ ' ' :: (pfx ++ x)) ++ accum pfx l ++ ' ' :: tail := by
      simp [accum, List.append_assoc]
    rw [e, fields_accum pfx hp l tail (fun y hy => h y (by simp [hy])), fields_sep (by decide),
      fields_clean (w := pfx ++ x) _ hx.2]
    · simp [List.append_assoc]
    · intro c hc
      rcases List.mem_append.1 hc with hc | hc
      · exact hp c hc
      · exact hx.1 c hc

theorem fields_accum' (pfx : Word) (hp : ∀ c ∈ pfx, ifs c = false) (l : List Word)
    (h : ∀ x ∈ l, (∀ c ∈ x, ifs c = false) ∧ pfx ++ x ≠ []) :
    fields ifs (accum pfx l) = l.map (fun x => pfx ++ x) := by
  have h1 := fields_accum pfx hp l [] h []
  have h2 : fields ifs (accum pfx l ++ ' ' :: []) = fields ifs (accum pfx l) ++ fields ifs [] :=
    fields_sep (by decide) _ _
  have h3 : fields ifs ([] : Word) = [] := rfl
  simp only [List.nil_append, h3, List.append_nil] at h1 h2
  rw [← h2, h1]

/-- If something is run, the command line had the documented form. -/
theorem linkParse_sound (e : LinkEnv) : ∀ (n : Nat) (args : List Word), args.length ≤ n →
    ∀ (o : LinkOpts) (argv : List Word), linkParse e o args = .exec argv →
    ∃ opts dd command a rest,
      args = opts.flatMap LinkOpt.words ++ marker dd ++ command :: a :: rest ∧
      (∀ f ∈ linkInserts opts ++ linkUndefs opts ++ linkWraps opts, f ≠ []) ∧ a ≠ [] ∧
      linkFinish e (o.add opts) (command :: a :: rest) = .exec argv
  | _, [], _, o, argv, h => by rw [linkParse] at h; cases h
  | 0, _ :: _, hl, _, _, _ => by simp at hl
  | n + 1, w :: ws, hl, o, argv, h => by
    have hl' : ws.length ≤ n := by simpa using hl
    have add0 : o.add [] = o := by
      simp [LinkOpts.add, linkInserts, linkUndefs, linkWraps, accum]
    have fin : ∀ args, linkFinish e o args = .exec argv →
        ∃ command a rest, args = command :: a :: rest ∧ a ≠ [] := by
      intro args h
      unfold linkFinish at h
      split at h
      · rename_i command a rest
        by_cases k : a = []
        · rw [if_pos k] at h; cases h
        · exact ⟨command, a, rest, rfl, k⟩
      · cases h
    have base : ∀ dd, linkFinish e o ws = .exec argv ∧ dd = true ∧ w = lit "--" ∨
        linkFinish e o (w :: ws) = .exec argv ∧ dd = false →
        ∃ opts dd command a rest,
          w :: ws = opts.flatMap LinkOpt.words ++ marker dd ++ command :: a :: rest ∧
          (∀ f ∈ linkInserts opts ++ linkUndefs opts ++ linkWraps opts, f ≠ []) ∧ a ≠ [] ∧
          linkFinish e (o.add opts) (command :: a :: rest) = .exec argv := by
      rintro dd (⟨h, rfl, hw⟩ | ⟨h, rfl⟩)
      · obtain ⟨c, a, r, e1, e2⟩ := fin _ h
        refine ⟨[], true, c, a, r, by simp [marker, e1, hw], by
          simp [linkInserts, linkUndefs, linkWraps], e2, ?_⟩
        rw [add0, ← e1]; exact h
      · obtain ⟨c, a, r, e1, e2⟩ := fin _ h
        refine ⟨[], false, c, a, r, by simp [marker, e1], by
          simp [linkInserts, linkUndefs, linkWraps], e2, ?_⟩
        rw [add0, ← e1]; exact h
    rw [linkParse_cons] at h
    by_cases k0 : w = []
    · rw [if_pos k0] at h; exact base false (Or.inr ⟨h, rfl⟩)
    rw [if_neg k0] at h
    by_cases k1 : w = lit "-h" ∨ w = lit "--help"
    · rw [if_pos k1] at h; cases h
    rw [if_neg k1] at h
    -- the three options with an argument
    have opt : ∀ (o' : LinkOpts) (O : LinkOpt) (f : Word) (ws' : List Word), ws = f :: ws' →
        O.words = [w, f] → o'.add = (fun l => o.add (O :: l)) →
        (∀ l, (∀ g ∈ linkInserts l ++ linkUndefs l ++ linkWraps l, g ≠ []) →
          ∀ g ∈ linkInserts (O :: l) ++ linkUndefs (O :: l) ++ linkWraps (O :: l), g ≠ []) →
        linkParse e o' ws' = .exec argv →
        ∃ opts dd command a rest,
          w :: ws = opts.flatMap LinkOpt.words ++ marker dd ++ command :: a :: rest ∧
          (∀ f ∈ linkInserts opts ++ linkUndefs opts ++ linkWraps opts, f ≠ []) ∧ a ≠ [] ∧
          linkFinish e (o.add opts) (command :: a :: rest) = .exec argv := by
      intro o' O f ws' e1 e2 e3 e4 h
      obtain ⟨opts, dd, c, a, r, ha, hf, hne, hx⟩ := linkParse_sound e n ws'
        (by rw [e1] at hl'; simp at hl'; omega) o' argv h
      refine ⟨O :: opts, dd, c, a, r, by simp [e2, e1, ha], e4 opts hf, hne, ?_⟩
      rw [e3] at hx; exact hx
    by_cases k2 : w = lit "-i" ∨ w = lit "--insert"
    · rw [if_pos k2] at h
      cases hw : ws with
      | nil => rw [hw] at h; cases h
      | cons f ws' =>
        rw [hw] at h
        simp only at h
        by_cases kf : f = []
        · rw [if_pos kf] at h; cases h
        rw [if_neg kf] at h
        have key : ∀ l : Bool, (LinkOpt.insert l f).words = [w, f] → _ := fun l hl =>
          opt { o with inserts := o.inserts ++ ' ' :: f } (.insert l f) f ws' hw hl
            (by funext l; simp [LinkOpts.add, linkInserts, linkUndefs, linkWraps, accum])
            (by
              intro l hh g hg
              simp only [linkInserts, linkUndefs, linkWraps, List.mem_append,
                List.filterMap_cons, List.mem_cons] at hg hh
              rcases hg with ((rfl | hg) | hg) | hg
              · exact kf
              · exact hh g (Or.inl (Or.inl hg))
              · exact hh g (Or.inl (Or.inr hg))
              · exact hh g (Or.inr hg)) h
        rw [← hw]
        rcases k2 with rfl | rfl
        · exact key false rfl
        · exact key true rfl
    rw [if_neg k2] at h
    by_cases k3 : w = lit "-u" ∨ w = lit "--undefined"
    · rw [if_pos k3] at h
      cases hw : ws with
      | nil => rw [hw] at h; cases h
      | cons f ws' =>
        rw [hw] at h
        simp only at h
        by_cases kf : f = []
        · rw [if_pos kf] at h; cases h
        rw [if_neg kf] at h
        have key : ∀ l : Bool, (LinkOpt.undef l f).words = [w, f] → _ := fun l hl =>
          opt { o with undefs := o.undefs ++ ' ' :: f } (.undef l f) f ws' hw hl
            (by funext l; simp [LinkOpts.add, linkInserts, linkUndefs, linkWraps, accum])
            (by
              intro l hh g hg
              simp only [linkInserts, linkUndefs, linkWraps, List.mem_append,
                List.filterMap_cons, List.mem_cons] at hg hh
              rcases hg with (hg | (rfl | hg)) | hg
              · exact hh g (Or.inl (Or.inl hg))
              · exact kf
              · exact hh g (Or.inl (Or.inr hg))
              · exact hh g (Or.inr hg)) h
        rw [← hw]
        rcases k3 with rfl | rfl
        · exact key false rfl
        · exact key true rfl
    rw [if_neg k3] at h
    by_cases k4 : w = lit "-v" ∨ w = lit "--verbose"
    · rw [if_pos k4] at h
      obtain ⟨opts, dd, c, a, r, ha, hf, hne, hx⟩ := linkParse_sound e n ws hl' o argv h
      rcases k4 with rfl | rfl
      · exact ⟨.verbose false :: opts, dd, c, a, r, by simp [LinkOpt.words, ha], hf, hne, hx⟩
      · exact ⟨.verbose true :: opts, dd, c, a, r, by simp [LinkOpt.words, ha], hf, hne, hx⟩
    rw [if_neg k4] at h
    by_cases k5 : w = lit "-w" ∨ w = lit "--wrap"
    · rw [if_pos k5] at h
      cases hw : ws with
      | nil => rw [hw] at h; cases h
      | cons f ws' =>
        rw [hw] at h
        simp only at h
        by_cases kf : f = []
        · rw [if_pos kf] at h; cases h
        rw [if_neg kf] at h
        have key : ∀ l : Bool, (LinkOpt.wrap l f).words = [w, f] → _ := fun l hl =>
          opt { o with wraps := o.wraps ++ ' ' :: f } (.wrap l f) f ws' hw hl
            (by funext l; simp [LinkOpts.add, linkInserts, linkUndefs, linkWraps, accum])
            (by
              intro l hh g hg
              simp only [linkInserts, linkUndefs, linkWraps, List.mem_append,
                List.filterMap_cons, List.mem_cons] at hg hh
              rcases hg with (hg | hg) | (rfl | hg)
              · exact hh g (Or.inl (Or.inl hg))
              · exact hh g (Or.inl (Or.inr hg))
              · exact kf
              · exact hh g (Or.inr hg)) h
        rw [← hw]
        rcases k5 with rfl | rfl
        · exact key false rfl
        · exact key true rfl
    rw [if_neg k5] at h
    by_cases k6 : w = lit "--"
    · rw [if_pos k6] at h; exact base true (Or.inl ⟨h, rfl, k6⟩)
    rw [if_neg k6] at h
    by_cases k7 : isDash w = true
    · rw [if_pos k7] at h; cases h
    rw [if_neg k7] at h
    exact base false (Or.inr ⟨h, rfl⟩)

end Libmonitor.Script
