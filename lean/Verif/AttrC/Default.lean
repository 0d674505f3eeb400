import Verif.AttrC.Share

/-!
# Invariants for C81: the default monitor_reset_stacksize
-/

namespace Libmonitor.AttrC

open Attr (Obj)

/-- Where a call can be. -/
def PlainPc (a : Option Id) : Pc → Prop
  | .set _ _ | .restore _ _ _ => False
  | .create p r _ => p = orig a ∧ r = none
  | _ => True

/-- What is claimed about each event. -/
def plainSpec (old : List Ev) (e : Ev) : Prop :=
  (∀ c p n ok, e ≠ .set c p n ok) ∧
  ∀ c p o r, e = .create c p o r → ∃ a, .enter c a ∈ old ∧ p = orig a ∧ o = a.bind (wish · old)

structure Plain (s : S) : Prop where
  pc : ∀ c, PlainPc (s.att c) (s.pc c)
  ent : ∀ c, c < s.nextC → .enter c (s.att c) ∈ s.tr
  obj : ∀ a, s.obj a = wish a s.tr
  tr : Always plainSpec s.tr

theorem plain_cmove {s s' : S} {t : Tid} {c : Call} {rest : List Slot} {ok : Bool} {n : Nat}
    (h : CMove s t c rest ok n (s.pc c) s') (ht : s.th t = .call c :: rest)
    (hA : Agrees s (.step t ok n)) (hn : s.pc c = .init → s.att c = none)
    (hlt : c < s.nextC) (hp : Plain s) : Plain s' := by
  have hal := cmove_alone h ht
  have hpc := hp.pc c
  have hask := fun old => hA t ok n c rest old rfl ht
  have hent := hp.ent c hlt
  have hother : ∀ d, d ≠ c → PlainPc (s'.att d) (s'.pc d) := fun d hd => by
    rw [hal.att, hal.pc d hd]; exact hp.pc d
  have hsub := (cmove_tr h 0).2.2.1
  have hentO : ∀ d, d < s'.nextC → .enter d (s'.att d) ∈ s'.tr := fun d hd => by
    rw [hal.att]; exact hsub _ (hp.ent d (hal.nextC ▸ hd))
  have hobj : ∀ a, s'.obj a = wish a s'.tr := by
    intro a
    rw [(cmove_tr h a).1, ← hp.obj a]
    rcases cmove_obj h a with h | ⟨_, _, o, m, _, _, ⟨old, he⟩ | ⟨d, r, he⟩⟩
    · exact h
    · rw [he] at hpc; exact hpc.elim
    · rw [he] at hpc; exact hpc.elim
  have mk : PlainPc (s.att c) (s'.pc c) → Always plainSpec s'.tr → Plain s' := by
    intro h1 h2
    refine ⟨fun d => ?_, hentO, hobj, h2⟩
    by_cases hd : d = c
    · subst hd; rw [hal.att]; exact h1
    · exact hother d hd
  have quiet : ∀ e tr, Always plainSpec tr → (∀ c p n ok, e ≠ .set c p n ok) →
      (∀ c p o r, e ≠ .create c p o r) → Always plainSpec (e :: tr) :=
    fun e tr h h1 h2 => ⟨⟨h1, fun c p o r he => absurd he (h2 c p o r)⟩, h⟩
  have real : ∀ o r,
      (orig (s.att c) = .null ∧ o = none ∨ orig (s.att c) ≠ .null ∧ o ≠ none ∧
        s.cell c (orig (s.att c)) = o) →
      Always plainSpec (.create c (orig (s.att c)) o r :: s.tr) := by
    intro o r ho
    refine ⟨⟨by simp, ?_⟩, hp.tr⟩
    intro c' p' o' r' he
    simp only [Ev.create.injEq] at he
    obtain ⟨rfl, rfl, rfl, rfl⟩ := he
    refine ⟨s.att c, hent, rfl, ?_⟩
    rcases ho with ⟨h1, rfl⟩ | ⟨h1, _, rfl⟩
    · cases hc : s.att c <;> simp [hc, orig] at h1 ⊢
    · cases hc : s.att c <;> simp [hc, orig] at h1 ⊢
      exact hp.obj _
  generalize hq : s.pc c = q at h hpc
  cases h with
  | pre =>
    refine mk ?_ hp.tr
    simp only [goto_pc, if_true]
    split
    · trivial
    · split <;> trivial
  | direct ho =>
    refine mk (by simp [PlainPc]) ?_
    simp only [setTh_tr, goto_tr, log_tr]
    exact quiet _ _ (real _ _ ho) (by simp) (by simp)
  | init => exact mk (by simp [PlainPc]) (quiet _ _ hp.tr (by simp) (by simp))
  | noInit =>
    exact mk (by simp [PlainPc, hn hq, orig]) (quiet _ _ hp.tr (by simp) (by simp))
  | get ho => exact mk (by simp [PlainPc]) (quiet _ _ hp.tr (by simp) (by simp))
  | noGet ho => exact mk (by simp [PlainPc]) (quiet _ _ hp.tr (by simp) (by simp))
  | same => exact mk (by simp [PlainPc]) (quiet _ _ hp.tr (by simp) (by simp))
  | ask hn => exact absurd (hask _ hq) hn
  | set ho => exact hpc.elim
  | noSet ho => exact hpc.elim
  | create ho =>
    obtain ⟨rfl, rfl⟩ := hpc
    refine mk ?_ (real _ _ ho)
    simp only [goto_pc, if_true, afterReal, cleanup]
    split <;> trivial
  | restore ho => exact hpc.elim
  | destroy ho => exact mk (by simp [PlainPc]) (quiet _ _ hp.tr (by simp) (by simp))
  | post => exact mk (by simp [PlainPc]) (quiet _ _ hp.tr (by simp) (by simp))
  | crash h1 h2 h3 =>
    refine mk ?_ (quiet _ _ hp.tr (by simp) (by simp))
    show PlainPc (s.att c) (s.pc c); exact hp.pc c

theorem plain_step {A : S → Lbl → Prop} {d0 : Nat} {s s' : S} {l : Lbl} (hs : ReachA A d0 s) (hA : Agrees s l)
    (hp : Plain s) (hn : next s l = some s') : Plain s' := by
  have hi := inv_of hs
  have hlog : ∀ e, (∀ c p n ok, e ≠ .set c p n ok) → (∀ c p o r, e ≠ .create c p o r) →
      Always plainSpec (e :: s.tr) := fun e h1 h2 => ⟨⟨h1, fun c p o r he => absurd he (h2 c p o r)⟩, hp.tr⟩
  unfold next at hn
  split at hn
  · simp at hn
  cases l with
  | step t ok n =>
    simp only at hn
    split at hn
    · rename_i c rest he
      have ht := hi.told c
      have hm := cmove_of hn (by
        intro v d r hp
        rw [hp] at ht
        obtain ⟨b, _, _, _, hb, _⟩ := ht
        simp [hb])
      refine plain_cmove hm he hA (fun hq => ?_) (hi.below t c (by rw [he]; simp)) hp
      rw [hq] at ht
      exact ht.1
    · simp at hn
  | use t u =>
    simp only at hn
    split at hn
    · simp only [Option.some.injEq] at hn; subst hn
      have hu := @log_use s u
      refine ⟨fun c => ?_, fun c => ?_, fun a => ?_, ?_⟩
      · rw [hu.1, hu.2.1]; exact hp.pc c
      · rw [hu.2.1, hu.2.2.2.2.1, hu.2.2.2.1]; exact fun h => List.mem_cons_of_mem _ (hp.ent c h)
      · rw [hu.2.2.2.2.1, wish_apply, obj_apply, hp.obj]
      · rw [hu.2.2.2.2.1]; exact hlog _ (by simp) (by simp)
    · simp at hn
  | create t b =>
    simp only at hn
    split at hn
    · simp only [Option.some.injEq] at hn; subst hn
      refine ⟨fun c => ?_, fun c => ?_, fun a => hp.obj a, hlog _ (by simp) (by simp)⟩
      · simp only [setTh_pc, setTh_att, S.goto, S.log]
        split
        · trivial
        · exact hp.pc c
      · simp only [setTh_nextC, setTh_att, setTh_tr, S.goto, S.log]
        intro hc
        split
        · rename_i h; subst h; simp
        · rename_i h
          exact List.mem_cons_of_mem _ (hp.ent c (Nat.lt_of_le_of_ne (Nat.le_of_lt_succ hc) h))
    · simp at hn
  | fork t =>
    simp only at hn
    split at hn
    · simp only [Option.some.injEq] at hn; subst hn
      refine ⟨fun c => ?_, fun c => ?_, fun a => hp.obj a, hlog _ (by simp) (by simp)⟩
      · simp only [S.log]
        split
        · exact hp.pc c
        · trivial
      · exact fun h => List.mem_cons_of_mem _ (hp.ent c h)
    · simp at hn
  | out t => simp only [Option.some.injEq] at hn; subst hn; exact ⟨hp.pc, hp.ent, hp.obj, hp.tr⟩
  | back t =>
    simp only at hn
    split at hn
    · simp only [Option.some.injEq] at hn; subst hn; exact ⟨hp.pc, hp.ent, hp.obj, hp.tr⟩
    · simp at hn
  | unwind t =>
    simp only at hn
    split at hn
    · simp only [Option.some.injEq] at hn; subst hn; exact ⟨hp.pc, hp.ent, hp.obj, hp.tr⟩
    · rename_i c rest he
      simp only [Option.some.injEq] at hn; subst hn
      refine ⟨fun d => ?_, hp.ent, hp.obj, hp.tr⟩
      simp only [setTh_pc, setTh_att, goto_pc, goto_att]
      split
      · trivial
      · exact hp.pc d
    · simp at hn

theorem plain_inv {d0 : Nat} {s : S} (hs : ReachA Agrees d0 s) : Plain s := by
  induction hs with
  | init => exact ⟨fun _ => trivial, fun _ h => absurd h (Nat.not_lt_zero _), fun _ => rfl, trivial⟩
  | next hs hA hn ih => exact plain_step hs hA ih hn

end Libmonitor.AttrC
