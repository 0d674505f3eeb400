import Verif.Proc.LifeClean
import Verif.Proc.ForkInv
/-!
# The calls of pthread_create
-/

namespace Libmonitor.Proc

/-- The call number `c` has not called pre-create, or pre-create said to ignore the thread. -/
def passedOver (tr : Hist) (t : Tid) (c : Nat) : Prop :=
  occurs (Ev.isPreCreate c) tr = 0 ∨ (t, .preCreateRet c ignoreData) ∈ tr

def createOrder (old : Hist) (t : Tid) : Ev → Prop
  | .createRet c => (∃ d, (t, .postCreate c d) ∈ old) ∨ passedOver old t c
  | .spawnIgn c _ _ _ => passedOver old t c
  | _ => True

def createFrame (g : G) (t : Tid) : Frame → Prop
  | .pcPost c _ => ∃ d, (t, .postCreate c d) ∈ g.tr
  | .pcIgn c _ _ => passedOver g.tr t c
  | _ => True

theorem preCreate_go {g g' : G} {t : Tid} {ok : Bool} {v : Nat} {f : Frame} {nx : Next}
    {sp : Option Frame} (c : Nat) (h : fstep g t ok v f = some (g', nx, sp)) :
    occurs (Ev.isPreCreate c) g'.tr = occurs (Ev.isPreCreate c) g.tr ∨
      ∃ my st ar, f = .pc5 c my st ar := by
  cases f <;> fstep_cases h <;> first
    | exact Or.inl rfl
    | (left; simp [G.emit, G.upd, occurs_cons, Ev.isPreCreate]; done)
    | skip
  rename_i c' my st ar
  by_cases e : c' = c
  · subst e; exact Or.inr ⟨_, _, _, rfl⟩
  · left; simp [G.emit, occurs_cons, Ev.isPreCreate, e]

theorem create_inv {A : S → Lbl → Prop} {s : S} (hs : ReachA A s) :
    Always createOrder s.g.tr ∧ ∀ u f, f ∈ s.th u → createFrame s.g u f := by
  refine frames_invA (A := A) (GI := fun g => Always createOrder g.tr) (FI := createFrame)
    trivial trivial ?_ (fun _ h => h) (fun _ _ _ h => ?_) ?_ ?_ ?_ ?_ hs
  · intro s t f rest ok v g' nx sp hr hA ht hG hF h
    have hft : f ∈ s.th t := by rw [ht]; exact List.mem_cons_self
    have hmem : ∀ e, e ∈ s.g.tr → e ∈ g'.tr := mem_of_fstep h
    have hf := hF t f hft
    have hold : ∀ u h', h' ∈ s.th u → (u = t → h' ∈ rest) → createFrame g' u h' := by
      intro u h' hm hor
      have hi := hF u h' hm
      cases h' <;> first | trivial | skip
      · exact hi.imp (fun d hd => hmem _ hd)
      · rename_i c st ar
        refine hi.imp (fun h0 => ?_) (hmem _)
        rcases preCreate_go c h with e | ⟨my', st', ar', e⟩
        · rw [e]; exact h0
        · subst e
          exfalso
          obtain ⟨-, h2, h3⟩ := oneTok_holder (oneTok_spawnCall c hr) ht (by simp [tokSpawn])
          have h1 : tokSpawn c (.pcIgn c st ar) = 1 := by simp [tokSpawn]
          by_cases eu : u = t
          · have := toks_pos (tok := tokSpawn c) (hor eu); omega
          · have := toks_pos (tok := tokSpawn c) hm
            have := h3 u eu
            omega
    have hunw : ∀ h ∈ unwound rest, createFrame g' t h := by
      intro h' hm
      rcases unwound_cases rest with e | ⟨_, n, _, _, e⟩ <;> rw [e] at hm <;> simp at hm <;>
        (try (rcases hm with hm | hm)) <;> (try subst hm) <;> trivial
    have hpre : ∀ {c my st ar}, f = .pc3 c my st ar → occurs (Ev.isPreCreate c) s.g.tr = 0 := by
      intro c my st ar e
      subst e
      exact (oneTok_holder (oneTok_preCreate c hr) ht (by simp [tokPreC])).1
    refine ⟨?_, hold, ?_, ?_, ?_, fun _ => hunw⟩
    · clear hold hunw ht hF hmem
      cases f <;> fstep_cases h <;> first
        | exact hG
        | exact ⟨trivial, hG⟩
        | exact ⟨trivial, trivial, hG⟩
        | (simp only [G.emit, G.upd, resetList_tr]; exact ⟨trivial, hG⟩)
        | exact ⟨Or.inl hf, hG⟩
        | exact ⟨Or.inr hf, hG⟩
        | skip
      refine ⟨Or.inr (hf.imp (fun h => ?_) (List.mem_cons_of_mem _)), hf, hG⟩
      exact h
    · intro e
      cases f <;> first
        | trivial
        | (fstep_cases h <;> cases e; done)
    · intro l e h' hm
      clear hold hunw hF hmem ht
      cases f <;> fstep_cases h <;> cases e <;>
        simp only [List.mem_cons, List.not_mem_nil, or_false] at hm <;>
        (try (rcases hm with hm | hm)) <;> (try subst hm) <;> first
        | trivial
        | (cases hm; done)
        | exact Or.inl (hpre rfl)
        | exact ⟨_, List.mem_cons_self⟩
        | (subst_vars; exact Or.inr List.mem_cons_self)
    · intro h' e
      cases f <;> fstep_cases h <;> cases e <;> trivial
  · rename_i f'; cases f' <;> first | trivial | exact h
  · intro s t i h _ _ _ _ _ _ _ hp _
    cases h <;> first | trivial | (simp [Frame.pushable] at hp; done)
  · intro s t _ _ _ _ _ h hm
    rcases unwound_cases (s.th t) with e | ⟨_, n, _, _, e⟩ <;> rw [e] at hm <;> simp at hm <;>
      (try (rcases hm with hm | hm)) <;> (try subst hm) <;> trivial
  · intro s t c d rest hr _ ht hG hF
    refine ⟨⟨trivial, hG⟩, fun h hm => ?_⟩
    simp only [List.mem_cons] at hm
    rcases hm with hm | hm | hm
    · subst hm; trivial
    · subst hm; trivial
    · have hi := hF t h (by rw [ht]; exact List.mem_cons_of_mem _ hm)
      cases h <;> first | trivial | skip
      · exact hi.imp (fun d hd => List.mem_cons_of_mem _ hd)
      · refine hi.imp (fun h => ?_) (List.mem_cons_of_mem _)
        simp only [G.emit, occurs_cons, Ev.isPreCreate, h]; rfl
  · intro s t rest hr _ ht hG hF
    refine ⟨⟨trivial, hG⟩, fun h hm => ?_⟩
    simp only [List.mem_cons] at hm
    rcases hm with hm | hm
    · subst hm; trivial
    · have hi := hF t h (by rw [ht]; exact List.mem_cons_of_mem _ hm)
      cases h <;> first | trivial | skip
      · exact hi.imp (fun d hd => List.mem_cons_of_mem _ hd)
      · refine hi.imp (fun h => ?_) (List.mem_cons_of_mem _)
        simp only [G.emit, occurs_cons, Ev.isPreCreate, h]; rfl

end Libmonitor.Proc
