import Verif.Proc.Exit
/-!
# Process start (main.c:255-285): invariants
-/

namespace Libmonitor.Proc

def tokInit (f : Frame) : Nat := if f.pendingInit then 1 else 0

theorem own_forked (t : Tid) (real : Bool) (tr : Hist) : own ((t, .forked real) :: tr) = [] := rfl

theorem own_cons {t : Tid} {e : Ev} (tr : Hist) (h : e.isForked = false) :
    own ((t, e) :: tr) = (t, e) :: own tr := by
  simp [own, h]

def Frame.isChildBp0 : Frame → Bool
  | .bp0 isFork _ => isFork
  | _ => false

/-- The thread has just returned from the real fork as child. -/
def inChild (s : S) (t : Tid) : Bool := ((s.th t).head?.map Frame.isChildBp0).getD false

/-- Executions in which no thread forks while it is going to call init-process, and no signal
handler runs in a fork child before the first instruction of monitor_begin_process_fcn. -/
def QuietFork (s : S) : Lbl → Prop
  | .fork t => (∀ f ∈ s.th t, f.pendingInit = false) ∨ (s.th t).head? = some .rf
  | .step t .interrupt => inChild s t = false
  | .step t .deliver => inChild s t = false
  | .step _ _ => True

instance (s : S) (l : Lbl) : Decidable (QuietFork s l) := by
  unfold QuietFork; split <;> infer_instance

def usedInit (g : G) : Nat := occurs Ev.isInitProcess (own g.tr)

theorem tokInit_go {g : G} {t : Tid} {ok : Bool} {v : Nat} {f : Frame} {g' : G} {nx : Next}
    {sp : Option Frame} (h0 : g.initCalled = false → usedInit g = 0)
    (h : fstep g t ok v f = some (g', nx, sp)) :
    usedInit g ≤ usedInit g' ∧ (∀ f0, sp = some f0 → tokInit f0 = 0) ∧
      ((g'.initCalled = g.initCalled ∧ nx.toks tokInit f + usedInit g' ≤ tokInit f + usedInit g) ∨
        (g.initCalled = false ∧ g'.initCalled = true ∧ nx.toks tokInit f + usedInit g' ≤ 1)) := by
  cases f <;> fstep_cases h <;>
    simp_all [listInit, G.emit, G.upd, Next.toks, toks, tokInit, usedInit, own, Ev.isForked,
      occurs_cons, Ev.isInitProcess, Frame.pendingInit]
  all_goals first | omega | skip
  all_goals
    cases hc : g.initCalled <;> simp_all

theorem init_inv {s : S} (hs : ReachA QuietFork s) :
    OneTok tokInit (·.initCalled) usedInit s ∨
    (∃ t d rest, s.th t = .bp0 true d :: rest ∧ toks tokInit rest = 0 ∧
      (∀ u, u ≠ t → s.th u = []) ∧ usedInit s.g = 0) := by
  induction hs with
  | init =>
    left
    refine ⟨fun _ => ⟨rfl, fun t => ?_⟩, fun h => by cases h⟩
    show toks tokInit (if t = 0 then [Frame.start] else []) = 0
    split <;> rfl
  | @next s s' l hr hA hn ih =>
    have hm := move_of_next hn
    cases l with
    | fork t =>
      cases hm with
      | @fork _ c d rest hd ht =>
        right
        refine ⟨t, d, .fkChild c :: rest, setTh_self (fun _ => []) t _, ?_, fun u hu => ?_, rfl⟩
        rotate_left
        · show setTh (fun _ => []) t _ u = []
          rw [setTh_ne _ _ hu]
        apply toks_zero
        rcases hA with hA | hA
        · intro f hf
          rcases List.mem_cons.1 hf with rfl | hf
          · rfl
          · have := hA f (by rw [ht]; exact List.mem_cons_of_mem _ hf)
            simp [tokInit, this]
        · rw [ht] at hA; cases hA
      | @realFork _ rest hd ht =>
        rcases ih with ih | ⟨t', d, rest', ht', -, h2, h3⟩
        · left
          refine oneTok_fork ⟨rfl, Nat.zero_le _⟩ ih ht ?_
          simp [toks_cons, tokInit, Frame.pendingInit]
        · by_cases e : t = t'
          · subst e; rw [ht] at ht'; cases ht'
          · rw [h2 t e] at ht; cases ht
    | step t i =>
      rcases ih with ih | ⟨t', d, rest', ht', h1, h2, h3⟩
      · left
        refine oneTok_step ?_ (fun _ => rfl) (fun _ => ⟨rfl, rfl⟩) tokInit_go (fresh_inv hr) hm
          (fun _ h => by cases h) ih
        intro f hf
        cases f <;> first | rfl | (simp [Frame.pushable] at hf; done) | skip
        rename_i b d
        cases b
        · rfl
        · cases hf
      · have et : t = t' := by
          by_cases e : t = t'
          · exact e
          · have := h2 t e
            cases hm with
            | go hd ht hf => rw [ht] at this; cases this
            | call a hd ht hf => rw [ht] at this; cases this
            | unwind hd ht hf => rw [ht] at this; cases this
            | deliver hd ht hon hh => rw [ht] at this; cases this
            | interrupt hd ht => rw [ht] at this; cases this
        subst et
        cases hm with
        | @go _ f rest ok v r hd ht hf =>
          rw [ht'] at ht
          injection ht with e1 e2
          subst e1; subst e2
          simp only [fstep, cont] at hf
          cases hf
          left
          refine ⟨fun h => (by cases h), fun _ => ⟨t, fun u hu => ?_, ?_⟩⟩
          · show toks tokInit (setTh s.th t _ u) = 0
            rw [setTh_ne _ _ hu, h2 u hu]; rfl
          · show toks tokInit (setTh s.th t ([Frame.bpReset d] ++ rest') t) + usedInit s.g ≤ 1
            rw [setTh_self, toks_append, h1, h3]
            simp [toks, tokInit, Frame.pendingInit]
        | call a hd ht hf => rw [ht'] at ht; cases ht; cases hf
        | unwind hd ht hf => rw [ht'] at ht; cases ht; cases hf
        | deliver hd ht hon hh => simp [QuietFork, inChild, ht', Frame.isChildBp0] at hA
        | interrupt hd ht => simp [QuietFork, inChild, ht', Frame.isChildBp0] at hA

/-- Executions in which a thread that is going to call init-process neither creates threads nor
ends (from the init-library callback or from a signal handler). -/
def QuietStart (s : S) : Lbl → Prop
  | .step t .unwind => ∀ f ∈ s.th t, f.pendingInit = false
  | .step t (.call .pthreadExit) => ∀ f ∈ s.th t, f.pendingInit = false
  | .step t (.call (.create _ _)) => ∀ f ∈ s.th t, f.pendingInit = false
  | _ => True

instance (s : S) (l : Lbl) : Decidable (QuietStart s l) := by
  unfold QuietStart; split <;> infer_instance

/-- Frames that go on to thread callbacks without asking for init-process first. -/
def Frame.threading : Frame → Bool
  | .pc3 .. | .pc4 .. | .pcSup0 .. | .pcSup1 .. | .pcSup .. | .pc5 .. | .pcPre .. | .mk0 ..
  | .mk1 .. | .pc6 .. | .pcStack ..
  | .pc7 .. | .pcIgn .. | .bt0 _ | .bt1 _ | .bt2 _ | .bt3 _ | .btInit _ | .bt4 _ | .bt5 _
  | .ign .. => true
  | _ => false

def Frame.isBp0 : Frame → Bool
  | .bp0 .. => true
  | _ => false

/-- Frames that must not be above a call that is going to call init-process. -/
def Frame.early : Frame → Bool
  | .pc0 .. | .pc1 .. | .pc2 .. | .px0 | .px1 => true
  | _ => false

/-- Before monitor_begin_process_fcn has been entered. -/
def Safe0 : List Frame → Prop
  | [] => True
  | f :: l => f.isBp0 = true ∨ (f.threading = false ∧ Safe0 l)

/-- After that, before init-process is called. -/
def Safe1 : List Frame → Prop
  | [] => False
  | f :: l => f.pendingInit = true ∨ (f.threading = false ∧ f.early = false ∧ Safe1 l)

theorem safe1_pending {l : List Frame} (h : Safe1 l) : ∃ f ∈ l, f.pendingInit = true := by
  induction l with
  | nil => exact h.elim
  | cons f l ih =>
    rcases h with h | ⟨-, -, h⟩
    · exact ⟨f, List.mem_cons_self, h⟩
    · obtain ⟨f', hm, hf⟩ := ih h
      exact ⟨f', List.mem_cons_of_mem _ hm, hf⟩

/-- Init-process was started, or this is the child of monitor_real_fork. -/
def begun (tr : Hist) : Prop :=
  (∃ u d, (u, Ev.initProcess d) ∈ own tr) ∨ startedBy tr = some true

theorem begun_cons {t : Tid} {e : Ev} {tr : Hist} (hf : e.isForked = false) (h : begun tr) :
    begun ((t, e) :: tr) := by
  rcases h with ⟨u, d, h⟩ | h
  · exact Or.inl ⟨u, d, by rw [own_cons _ hf]; exact List.mem_cons_of_mem _ h⟩
  · refine Or.inr ?_
    cases e <;> first | exact h | cases hf

theorem fstep_forked {g g' : G} {t : Tid} {ok : Bool} {v : Nat} {f : Frame} {nx : Next}
    {sp : Option Frame} (h : fstep g t ok v f = some (g', nx, sp)) :
    ∃ es : List Ev, g'.tr = es.map (fun e => (t, e)) ++ g.tr ∧ ∀ e ∈ es, e.isForked = false := by
  cases f <;> fstep_cases h <;>
    first
    | exact ⟨[], rfl, by simp⟩
    | exact ⟨[_], rfl, by simp [Ev.isForked]⟩
    | exact ⟨[_, _], rfl, by simp [Ev.isForked]⟩
    | exact ⟨[_], by simp only [G.emit, G.upd, resetList_tr]; rfl, by simp [Ev.isForked]⟩

theorem begun_fstep {g g' : G} {t : Tid} {ok : Bool} {v : Nat} {f : Frame} {nx : Next}
    {sp : Option Frame} (h : fstep g t ok v f = some (g', nx, sp)) (hb : begun g.tr) :
    begun g'.tr := by
  obtain ⟨es, he, hf⟩ := fstep_forked h
  rw [he]
  clear he
  induction es with
  | nil => exact hb
  | cons e es ih =>
    exact begun_cons (hf e List.mem_cons_self) (ih (fun e' he' => hf e' (List.mem_cons_of_mem _ he')))

def startAfterInit (old : Hist) (_t : Tid) (e : Ev) : Prop := e.isThreadStart = true → begun old

/-- One step of the only thread before init-process is called. -/
theorem safe_go {g g' : G} {t : Tid} {ok : Bool} {v : Nat} {f : Frame} {rest : List Frame}
    {nx : Next} {sp : Option Frame} (h : fstep g t ok v f = some (g', nx, sp))
    (hsafe : if g.initCalled then Safe1 (f :: rest) else Safe0 (f :: rest))
    (hA : Always startAfterInit g.tr) :
    Always startAfterInit g'.tr ∧ sp = none ∧
      (begun g'.tr ∨
        ((nx = .die → if g'.initCalled then Safe1 (f :: rest) else Safe0 (f :: rest)) ∧
         (nx = .unwind → g'.initCalled = false) ∧
         (∀ l, nx = .go l → if g'.initCalled then Safe1 (l ++ rest) else Safe0 (l ++ rest)))) := by
  by_cases hc : g.initCalled = true
  · rw [if_pos hc] at hsafe
    rcases hsafe with hp | ⟨h1, h2, h3⟩
    · cases f <;> (try (simp [Frame.pendingInit] at hp; done)) <;> fstep_cases h <;>
        simp_all [Always, startAfterInit, Ev.isThreadStart, G.emit, G.upd, Safe1,
          Frame.pendingInit, Frame.threading, Frame.early]
      exact Or.inl (Or.inl ⟨t, _, by rw [own_cons _ rfl]; exact List.mem_cons_self⟩)
    · cases f <;> (try (simp [Frame.threading] at h1; done)) <;>
        (try (simp [Frame.early] at h2; done)) <;> fstep_cases h <;>
        simp_all [Always, startAfterInit, Ev.isThreadStart, G.emit, G.upd, Safe1, listInit,
          Frame.pendingInit, Frame.threading, Frame.early]
  · rw [if_neg hc] at hsafe
    have hc : g.initCalled = false := by simpa using hc
    rcases hsafe with hp | ⟨h1, h3⟩
    · cases f <;> (try (simp [Frame.isBp0] at hp; done)) <;> fstep_cases h <;>
        simp_all [Always, startAfterInit, Ev.isThreadStart, G.emit, G.upd, Safe1,
          Frame.pendingInit, Frame.threading, Frame.early]
    · cases f <;> (try (simp [Frame.threading] at h1; done)) <;> fstep_cases h <;>
        simp_all [Always, startAfterInit, Ev.isThreadStart, G.emit, G.upd, Safe0, Safe1, listInit,
          Frame.isBp0, Frame.pendingInit, Frame.threading, Frame.early]

theorem always_begun {t : Tid} {es : List Ev} {tr : Hist} (hf : ∀ e ∈ es, e.isForked = false)
    (hb : begun tr) (hA : Always startAfterInit tr) :
    Always startAfterInit (es.map (fun e => (t, e)) ++ tr) ∧
      begun (es.map (fun e => (t, e)) ++ tr) := by
  induction es with
  | nil => exact ⟨hA, hb⟩
  | cons e es ih =>
    obtain ⟨h1, h2⟩ := ih (fun e' he' => hf e' (List.mem_cons_of_mem _ he'))
    exact ⟨⟨fun _ => h2, h1⟩, begun_cons (hf e List.mem_cons_self) h2⟩

/-- Not begun yet: only one thread, and it calls init-process before anything else. -/
def Waiting (s : S) : Prop :=
  ∃ t, (∀ u, u ≠ t → s.th u = []) ∧ (if s.g.initCalled then Safe1 (s.th t) else Safe0 (s.th t))

theorem waiting_set {s : S} {t : Tid} {l : List Frame} {g : G} (hu : ∀ u, u ≠ t → s.th u = [])
    (h : if g.initCalled then Safe1 l else Safe0 l) : Waiting { g := g, th := setTh s.th t l } := by
  refine ⟨t, fun u hne => ?_, ?_⟩
  · show setTh s.th t l u = []
    rw [setTh_ne _ _ hne]; exact hu u hne
  · show if g.initCalled then Safe1 (setTh s.th t l t) else Safe0 (setTh s.th t l t)
    rw [setTh_self]; exact h

theorem waiting_child {g : G} {t : Tid} {d : Data} {l : List Frame} :
    Waiting { g := g, th := setTh (fun _ => []) t (.bp0 true d :: l) } := by
  refine waiting_set (s := { g := g, th := fun _ => [] }) (fun _ _ => rfl) ?_
  split
  · exact Or.inl rfl
  · exact Or.inl rfl

theorem safe_unwound (l : List Frame) : Safe0 (unwound l) := by
  rcases unwound_cases l with h | ⟨_, n, _, _, h⟩ <;> rw [h] <;> simp [Safe0, Frame.threading]

theorem start_inv {s : S} (hs : ReachA QuietStart s) :
    Always startAfterInit s.g.tr ∧ (begun s.g.tr ∨ Waiting s) := by
  induction hs with
  | init =>
    refine ⟨trivial, Or.inr ⟨0, fun u hu => ?_, Or.inr ⟨rfl, trivial⟩⟩⟩
    show (if u = 0 then [Frame.start] else []) = []
    rw [if_neg hu]
  | @next s s' l hr hA hn ih =>
    obtain ⟨iA, ih⟩ := ih
    have hm := move_of_next hn
    cases hm with
    | @fork t c d rest hd ht =>
      exact ⟨⟨fun h => by simp [Ev.isThreadStart] at h, iA⟩, Or.inr waiting_child⟩
    | @realFork t rest hd ht =>
      exact ⟨⟨fun h => by simp [Ev.isThreadStart] at h, iA⟩, Or.inl (Or.inr rfl)⟩
    | @go t f rest ok v r hd ht hf =>
      obtain ⟨g', nx, sp⟩ := r
      have htr : (applyRes s t rest (g', nx, sp)).g.tr = g'.tr := by
        rw [applyRes_g]; split <;> rfl
      rw [htr]
      rcases ih with ih | ⟨w, hu, hs⟩
      · obtain ⟨es, he, hfk⟩ := fstep_forked hf
        rw [he]
        obtain ⟨h1, h2⟩ := always_begun hfk ih iA
        exact ⟨h1, Or.inl h2⟩
      · have e : t = w := by
          by_cases e : t = w
          · exact e
          · rw [hu t e] at ht; cases ht
        subst e
        rw [ht] at hs
        obtain ⟨h1, rfl, h2⟩ := safe_go hf hs iA
        refine ⟨h1, h2.imp id ?_⟩
        rintro ⟨a, b, c⟩
        cases nx with
        | go l => exact waiting_set hu (c l rfl)
        | unwind =>
          have hi := b rfl
          refine waiting_set hu ?_
          rw [hi]; exact safe_unwound _
        | die =>
          have := a rfl
          refine ⟨t, hu, ?_⟩
          show if g'.initCalled then Safe1 (s.th t) else Safe0 (s.th t)
          rw [ht]; exact this
    | @call t f rest a hd ht hf =>
      refine ⟨iA, ih.imp id ?_⟩
      rintro ⟨w, hu, hs⟩
      have e : t = w := by
        by_cases e : t = w
        · exact e
        · rw [hu t e] at ht; cases ht
      subst e
      refine waiting_set hu ?_
      rw [ht] at hs
      split
      · rename_i hi
        rw [if_pos hi] at hs
        obtain ⟨f', hm', hf'⟩ := safe1_pending hs
        cases a <;> simp only [Api.frames] <;> (try split) <;>
          first
          | (have := hA f' (by rw [ht]; exact hm'); rw [hf'] at this; cases this; done)
          | (simp only [List.cons_append, List.nil_append]
             simp [Safe1, Frame.threading, Frame.early, Frame.pendingInit]
             exact hs)
      · rename_i hi
        rw [if_neg hi] at hs
        cases a <;> simp only [Api.frames] <;> (try split) <;>
          (simp only [List.cons_append, List.nil_append]
           simp [Safe0, Frame.threading, Frame.isBp0]
           try exact hs)
    | @unwind t f rest hd ht hf =>
      refine ⟨iA, ih.imp id ?_⟩
      rintro ⟨w, hu, hs⟩
      have e : t = w := by
        by_cases e : t = w
        · exact e
        · rw [hu t e] at ht; cases ht
      subst e
      refine waiting_set hu ?_
      split
      · rename_i hi
        rw [if_pos hi] at hs
        obtain ⟨f', hm', hf'⟩ := safe1_pending hs
        rw [hA f' hm'] at hf'; cases hf'
      · exact safe_unwound _
    | @deliver t f rest hd ht hon hh =>
      refine ⟨iA, ih.imp id ?_⟩
      rintro ⟨w, hu, hs⟩
      have e : t = w := by
        by_cases e : t = w
        · exact e
        · rw [hu t e] at ht; cases ht
      subst e
      refine waiting_set hu ?_
      rw [ht] at hs
      split
      · rename_i hi; rw [if_pos hi] at hs; exact Or.inr ⟨rfl, rfl, hs⟩
      · rename_i hi; rw [if_neg hi] at hs; exact Or.inr ⟨rfl, hs⟩
    | @interrupt t f rest hd ht =>
      refine ⟨iA, ih.imp id ?_⟩
      rintro ⟨w, hu, hs⟩
      have e : t = w := by
        by_cases e : t = w
        · exact e
        · rw [hu t e] at ht; cases ht
      subst e
      refine waiting_set hu ?_
      rw [ht] at hs
      split
      · rename_i hi; rw [if_pos hi] at hs; exact Or.inr ⟨rfl, rfl, hs⟩
      · rename_i hi; rw [if_neg hi] at hs; exact Or.inr ⟨rfl, hs⟩

end Libmonitor.Proc
