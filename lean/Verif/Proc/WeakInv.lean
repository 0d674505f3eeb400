import Verif.Proc.SpecWeak
import Verif.Proc.Exit
/-!
# The library without its thread module: invariants
-/

namespace Libmonitor.Proc

/-- Frames of functions outside pthread.c, and the entry of monitor_thread_shootdown. -/
def Frame.inMain : Frame → Bool
  | .app | .start | .mainAt0 | .mainAt | .mainApp | .xMain | .xErr | .realExit | .realExit2 | .tdtor
  | .ignApp | .bl0 | .blCb | .bp0 .. | .bpReset _ | .bpFlags _ | .bpCall _ | .bpCb | .el0 | .elCb
  | .ep0 _ | .ep1 .. | .ep2 .. | .epBegin _ | .epFini0 _ | .epFini _ | .epWait _ | .epDone ..
  | .xExit | .xUExit | .xUExit2 _ | .xExec | .xExec2 _ | .xSig _ | .xSig2 _ | .sd0
  | .fk0 | .fkPre _ | .fkReal .. | .fkPost0 .. | .fkPost .. | .fkChild _ | .rf | .rfReset
  | .qNum | .qData | .qThr => true
  | _ => false

/-- No trace of the thread module. -/
def plainG (g : G) : Prop := g.hasUsed = false ∧ g.main.tid = 0 ∧ g.handlerOn = false

def plainS (s : S) : Prop := plainG s.g ∧ ∀ u h, h ∈ s.th u → h.inMain = true

theorem resetList_plain {g : G} {t : Tid} (h : g.hasUsed = false) : resetList g t = g := by
  simp [resetList, h]

theorem getTn_plain {g : G} {t : Tid} (h : g.hasUsed = false) : getTn g t = some .main := by
  simp [getTn, h]

/-- The weak definitions do what the full ones do before the first pthread_create. -/
theorem fstepW_eq {g : G} {t : Tid} {ok : Bool} {v : Nat} {f : Frame} (hg : plainG g) :
    fstepW g t ok v f = fstep g t ok v f := by
  obtain ⟨h1, h2, h3⟩ := hg
  have h2 : (g.nodes .main).tid = 0 := h2
  cases f <;> first
    | rfl
    | simp [fstepW, fstep, resetList_plain h1, getTn_plain h1, h1, h2, G.main]

theorem plain_fstep {g g' : G} {t : Tid} {ok : Bool} {v : Nat} {f : Frame} {nx : Next}
    {sp : Option Frame} (hg : plainG g) (hf : f.inMain = true)
    (h : fstep g t ok v f = some (g', nx, sp)) :
    plainG g' ∧ sp = none ∧ nx ≠ .unwind ∧ (∀ l, nx = .go l → ∀ h ∈ l, h.inMain = true) := by
  obtain ⟨h1, h2, h3⟩ := hg
  have h2 : (g.nodes .main).tid = 0 := h2
  refine ⟨?_, ?_, ?_, ?_⟩
  · cases f <;> first | (simp [Frame.inMain] at hf; done) | skip
    all_goals fstep_cases h <;>
      simp_all [plainG, G.emit, G.upd, G.main, resetList_plain]
    all_goals (split <;> simp_all)
  · cases f <;> first | (simp [Frame.inMain] at hf; done) | skip
    all_goals fstep_cases h <;> rfl
  · cases f <;> first | (simp [Frame.inMain] at hf; done) | skip
    all_goals fstep_cases h <;> (intro h; cases h)
  · intro l hl
    cases f <;> first | (simp [Frame.inMain] at hf; done) | skip
    all_goals fstep_cases h <;> cases hl <;> simp_all [Frame.inMain]

theorem plain_api {a : Api} (h : a.inSubset = true) {f : Frame} (hf : f ∈ a.frames) :
    f.inMain = true := by
  cases a <;> first
    | (simp [Api.inSubset] at h; done)
    | (simp only [Api.frames] at hf
       (try split at hf) <;>
       simp only [List.mem_cons, List.not_mem_nil, or_false] at hf <;>
       first | (subst hf; rfl) | (rcases hf with hf | hf <;> subst hf <;> rfl))

theorem unwound_plain {l : List Frame} (h : ∀ f ∈ l, f.inMain = true) : unwound l = [.tdtor] := by
  rcases unwound_cases l with e | ⟨f, n, hf, ha, _⟩
  · exact e
  · have := h f hf
    cases f <;> first | (simp [Frame.inMain] at this; done) | (simp [Frame.armed] at ha; done)

/-- A state change of the library without its thread module. -/
theorem nextW_cases {s s' : S} {l : LblW} (hs : plainS s) (h : nextW s l = some s') :
    (∃ l', l = .lib l' ∧ NoThreads s l' ∧ next s l' = some s') ∨
      (l = .spawn ∧ s.g.dead = false ∧
        s' = { g := { s.g with nextTid := s.g.nextTid + 1 },
               th := setTh s.th s.g.nextTid [.ignApp] }) := by
  cases l with
  | spawn =>
    simp only [nextW] at h
    split at h
    · cases h
    · rename_i hd
      injection h with h
      exact Or.inr ⟨rfl, by simpa using hd, h.symm⟩
  | lib l =>
    refine Or.inl ⟨l, rfl, ?_⟩
    cases l with
    | fork t => exact ⟨trivial, h⟩
    | step t i =>
      simp only [nextW, stepW] at h
      simp only [next, step]
      split at h
      · cases h
      · rename_i hd
        rw [if_neg hd]
        split at h
        · cases h
        · rename_i f rest ht
          rw [ht]
          cases i with
          | go ok v =>
            refine ⟨trivial, ?_⟩
            simp only [fstepW_eq hs.1] at h
            exact h
          | call a =>
            simp only at h
            split at h
            · rename_i hc
              rw [Bool.and_eq_true] at hc
              refine ⟨?_, ?_⟩
              · cases a <;> first | trivial | (simp [Api.inSubset] at hc; done)
              · simp only [hc.1, if_true]; exact h
            · cases h
          | unwind => exact ⟨trivial, h⟩
          | deliver => cases h
          | interrupt => exact ⟨trivial, h⟩

/-- The converse. -/
theorem nextW_of_next {s s' : S} {l : Lbl} (hs : plainS s) (hl : NoThreads s l)
    (h : next s l = some s') : nextW s (.lib l) = some s' := by
  cases l with
  | fork t => exact h
  | step t i =>
    simp only [next, step] at h
    simp only [nextW, stepW]
    split at h
    · cases h
    · rename_i hd
      rw [if_neg hd]
      split at h
      · cases h
      · rename_i f rest ht
        rw [ht]
        cases i with
        | go ok v => simp only [fstepW_eq hs.1]; exact h
        | call a =>
          have ha : a.inSubset = true := by
            cases a <;> first | rfl | exact absurd hl (by simp [NoThreads])
          simp only [ha, Bool.and_true]; exact h
        | unwind => exact h
        | deliver => simp only [hs.1.2.2, Bool.false_and] at h; cases h
        | interrupt => exact h

/-- Invariants of programs linked without the thread module. -/
theorem stack_invW {GI : G → Prop} {SI : G → Tid → List Frame → Prop}
    (hGI : GI {}) (hSI : SI {} 0 [.start])
    (hgo : ∀ {s : S} {t : Tid} {f : Frame} {rest : List Frame} {ok : Bool} {v : Nat} {g' : G}
      {nx : Next}, plainG s.g → f.inMain = true → s.th t = f :: rest → GI s.g →
      (∀ u, SI s.g u (s.th u)) → fstep s.g t ok v f = some (g', nx, none) →
      GI g' ∧ (∀ u, u ≠ t → SI s.g u (s.th u) → SI g' u (s.th u)) ∧
        (nx = .die → SI g' t (f :: rest)) ∧ (∀ l, nx = .go l → SI g' t (l ++ rest)))
    (hdead : ∀ g : G, GI g → GI { g with dead := true })
    (hdeadS : ∀ (g : G) (u : Tid) (l : List Frame), SI g u l → SI { g with dead := true } u l)
    (hcall : ∀ {g : G} {t : Tid} {f : Frame} {rest : List Frame} (a : Api), GI g →
      SI g t (f :: rest) → SI g t (a.frames ++ f :: rest))
    (happ : ∀ {g : G} {t : Tid} {rest : List Frame}, GI g → SI g t rest → SI g t (.app :: rest))
    (htd : ∀ {g : G} {t : Tid}, GI g → SI g t [.tdtor])
    (hspawnG : ∀ {g : G} {n : Nat}, GI g → GI { g with nextTid := n })
    (hspawnS : ∀ {g : G} {n : Nat} {u : Tid} {l : List Frame}, SI g u l →
      SI { g with nextTid := n } u l)
    (hign : ∀ {g : G} {t : Tid}, GI g → SI g t [.ignApp])
    (hforkG : ∀ {g : G} {t : Tid} {real : Bool}, GI g → GI (g.emit t (.forked real)))
    (hnil : ∀ {g : G} {t : Tid}, SI g t [])
    (hfk : ∀ {g : G} {t : Tid} {c : Nat} {d : Data} {rest : List Frame},
      SI g t (.fkReal c d :: rest) →
      SI (g.emit t (.forked false)) t (.bp0 true d :: .fkChild c :: rest))
    (hrf : ∀ {g : G} {t : Tid} {rest : List Frame}, SI g t (.rf :: rest) →
      SI (g.emit t (.forked true)) t (.rfReset :: rest))
    {A : LblW → Prop} {s : S} (hs : ReachW A s) :
    plainS s ∧ GI s.g ∧ ∀ u, SI s.g u (s.th u) := by
  have set : ∀ {g : G} {th : Tid → List Frame} {t : Tid} {l : List Frame},
      (∀ u, u ≠ t → SI g u (th u)) → SI g t l → ∀ u, SI g u (setTh th t l u) := by
    intro g th t l ih hl u
    by_cases e : u = t
    · subst e; rw [setTh_self]; exact hl
    · rw [setTh_ne _ _ e]; exact ih u e
  have setP : ∀ {th : Tid → List Frame} {t : Tid} {l : List Frame},
      (∀ u h, h ∈ th u → h.inMain = true) → (∀ h ∈ l, h.inMain = true) →
      ∀ u h, h ∈ setTh th t l u → h.inMain = true := by
    intro th t l ih hl u h hm
    rcases mem_setTh hm with ⟨_, hm⟩ | ⟨_, hm⟩
    · exact hl h hm
    · exact ih u h hm
  induction hs with
  | init =>
    refine ⟨⟨⟨rfl, rfl, rfl⟩, fun u h hm => ?_⟩, hGI, fun u => ?_⟩
    · simp only at hm
      split at hm
      · rw [List.mem_singleton] at hm; rw [hm]; rfl
      · cases hm
    · show SI {} u (if u = 0 then [Frame.start] else [])
      split
      · rename_i e; rw [e]; exact hSI
      · exact hnil
  | @next s s' l hr hA hn ih =>
    obtain ⟨iP, iG, iS⟩ := ih
    have iL : ∀ {t : Tid} {l : List Frame}, s.th t = l → ∀ h ∈ l, h.inMain = true := by
      intro t l e h hm
      exact iP.2 t h (by rw [e]; exact hm)
    rcases nextW_cases iP hn with ⟨l', rfl, hl, hn'⟩ | ⟨rfl, hd, rfl⟩
    · have hm := move_of_next hn'
      cases hm with
      | @go t f rest ok v r hd ht hf =>
        obtain ⟨g', nx, sp⟩ := r
        have hpf : f.inMain = true := iL ht f List.mem_cons_self
        obtain ⟨p1, rfl, p3, p4⟩ := plain_fstep iP.1 hpf hf
        obtain ⟨h1, h2, h3, h4⟩ := hgo iP.1 hpf ht iG iS hf
        cases nx with
        | unwind => exact absurd rfl p3
        | die =>
          refine ⟨⟨p1, iP.2⟩, hdead _ h1, fun u => hdeadS _ _ _ ?_⟩
          by_cases e : u = t
          · subst e
            show SI g' u (s.th u)
            rw [ht]; exact h3 rfl
          · exact h2 u e (iS u)
        | go l =>
          refine ⟨⟨p1, setP iP.2 ?_⟩, h1, set (fun u e => h2 u e (iS u)) (h4 l rfl)⟩
          intro h hm
          rcases List.mem_append.1 hm with hm | hm
          · exact p4 l rfl h hm
          · exact iL ht h (List.mem_cons_of_mem _ hm)
      | @call t f rest a hd ht hf =>
        have ha : a.inSubset = true := by
          cases a <;> first | rfl | exact absurd hl (by simp [NoThreads])
        refine ⟨⟨iP.1, setP iP.2 ?_⟩, iG, set (fun u _ => iS u) (hcall a iG (ht ▸ iS t))⟩
        intro h hm
        rcases List.mem_append.1 hm with hm | hm
        · exact plain_api ha hm
        · exact iL ht h hm
      | @unwind t f rest hd ht hf =>
        rw [unwound_plain (iL ht)]
        refine ⟨⟨iP.1, setP iP.2 ?_⟩, iG, set (fun u _ => iS u) (htd iG)⟩
        intro h hm
        rw [List.mem_singleton] at hm; rw [hm]; rfl
      | @deliver t f rest hd ht hon hh =>
        rw [iP.1.2.2] at hon; cases hon
      | @interrupt t f rest hd ht =>
        refine ⟨⟨iP.1, setP iP.2 ?_⟩, iG, set (fun u _ => iS u) (happ iG (ht ▸ iS t))⟩
        intro h hm
        rcases List.mem_cons.1 hm with hm | hm
        · rw [hm]; rfl
        · exact iL ht h hm
      | @fork t c d rest hd ht =>
        refine ⟨⟨iP.1, setP (fun u h hm => by cases hm) ?_⟩, hforkG iG,
          set (fun u _ => hnil) (hfk (ht ▸ iS t))⟩
        intro h hm
        rcases List.mem_cons.1 hm with hm | hm
        · rw [hm]; rfl
        rcases List.mem_cons.1 hm with hm | hm
        · rw [hm]; rfl
        · exact iL ht h (List.mem_cons_of_mem _ hm)
      | @realFork t rest hd ht =>
        refine ⟨⟨iP.1, setP (fun u h hm => by cases hm) ?_⟩, hforkG iG,
          set (fun u _ => hnil) (hrf (ht ▸ iS t))⟩
        intro h hm
        rcases List.mem_cons.1 hm with hm | hm
        · rw [hm]; rfl
        · exact iL ht h (List.mem_cons_of_mem _ hm)
    · refine ⟨⟨iP.1, setP iP.2 ?_⟩, hspawnG iG, set (fun u _ => hspawnS (iS u)) (hign (hspawnG iG))⟩
      intro h hm
      rw [List.mem_singleton] at hm; rw [hm]; rfl

theorem plain_inv {A : LblW → Prop} {s : S} (hs : ReachW A s) : plainS s :=
  (stack_invW (GI := fun _ => True) (SI := fun _ _ _ => True) trivial trivial
    (fun _ _ _ _ _ _ => ⟨trivial, fun _ _ _ => trivial, fun _ => trivial, fun _ _ => trivial⟩)
    (fun _ _ => trivial) (fun _ _ _ _ => trivial) (fun _ _ _ => trivial) (fun _ _ => trivial)
    (fun _ => trivial) (fun _ => trivial) (fun _ => trivial) (fun _ => trivial) (fun _ => trivial)
    trivial (fun _ => trivial) (fun _ => trivial) hs).1

/-- Thread identifiers from `nextTid` on are unused. -/
theorem fresh_invW {A : LblW → Prop} {s : S} (hs : ReachW A s) :
    ∀ t, s.g.nextTid ≤ t → s.th t = [] := by
  induction hs with
  | init =>
    intro t ht
    have : (1 : Nat) ≤ t := ht
    show (if t = 0 then [Frame.start] else []) = []
    rw [if_neg (by omega)]
  | @next s s' l hr hA hn ih =>
    have iP := plain_inv hr
    have push : ∀ {t : Tid} {f : Frame} {rest l : List Frame}, s.th t = f :: rest →
        ∀ u, s.g.nextTid ≤ u → setTh s.th t l u = [] ∧ setTh (fun _ => []) t l u = [] := by
      intro t f rest l ht u hu
      have hne : u ≠ t := by
        intro e; subst e
        have := ih u hu
        rw [ht] at this; cases this
      rw [setTh_ne _ _ hne, setTh_ne _ _ hne]
      exact ⟨ih u hu, rfl⟩
    rcases nextW_cases iP hn with ⟨l', rfl, hl, hn'⟩ | ⟨rfl, hd, rfl⟩
    · have hm := move_of_next hn'
      cases hm with
      | @go t f rest ok v r hd ht hf =>
        obtain ⟨g', nx, sp⟩ := r
        have hpf : f.inMain = true := iP.2 t f (by rw [ht]; exact List.mem_cons_self)
        obtain ⟨p1, rfl, p3, p4⟩ := plain_fstep iP.1 hpf hf
        rcases fstep_spawn hf with ⟨_, e⟩ | ⟨f0, l, e, _⟩
        · intro u hu
          cases nx with
          | unwind => exact absurd rfl p3
          | die => exact ih u (by rw [← e]; exact hu)
          | go l => exact (push ht u (by rw [← e]; exact hu)).1
        · cases e
      | @call t f rest a hd ht hf => exact fun u hu => (push ht u hu).1
      | @unwind t f rest hd ht hf => exact fun u hu => (push ht u hu).1
      | @deliver t f rest hd ht hon hh => exact fun u hu => (push ht u hu).1
      | @interrupt t f rest hd ht => exact fun u hu => (push ht u hu).1
      | @fork t c d rest hd ht => exact fun u hu => (push ht u hu).2
      | @realFork t rest hd ht => exact fun u hu => (push ht u hu).2
    · intro u hu
      have hu : s.g.nextTid + 1 ≤ u := hu
      show setTh s.th s.g.nextTid [.ignApp] u = []
      rw [setTh_ne _ _ (by omega)]
      exact ih u (by omega)

theorem reachW_of_run {A : LblW → Prop} {s s' : S} {ls : List LblW} (hs : ReachW A s)
    (hA : ∀ l ∈ ls, A l) (h : runW s ls = some s') : ReachW A s' := by
  induction ls generalizing s with
  | nil => simp only [runW] at h; injection h with h; exact h ▸ hs
  | cons l ls ih =>
    simp only [runW, Option.bind_eq_some_iff] at h
    obtain ⟨s1, h1, h2⟩ := h
    exact ih (.next hs (hA l List.mem_cons_self) h1)
      (fun l hl => hA l (List.mem_cons_of_mem _ hl)) h2

theorem existsW_of_run {A : LblW → Prop} {ls : List LblW} {p : S → Bool} (hA : ∀ l ∈ ls, A l)
    (h : ((runW {} ls).map p).getD false = true) : ∃ s, ReachW A s ∧ p s = true := by
  cases hr : runW {} ls with
  | none => rw [hr] at h; exact absurd h (by simp)
  | some s =>
    rw [hr] at h
    exact ⟨s, reachW_of_run .init hA hr, by simpa using h⟩

end Libmonitor.Proc
