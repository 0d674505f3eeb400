import Verif.Proc.SpecSource
import Verif.Proc.Data
/-!
# Where the client's data come from: invariants
-/

namespace Libmonitor.Proc

/-- Where the data of a call come from. -/
def fsrc (h : Hist) : Frame → Prop
  | .bp0 _ d | .bpReset d | .bpFlags d | .bpCall d => FromFork h d
  | .mk0 c _ _ _ d | .mk1 c _ _ _ d | .pc6 c _ _ _ _ d | .pcStack c _ _ _ _ d | .pc7 c _ _ _ _ d
  | .pc8 c _ _ d => ∃ u, (u, Ev.preCreateRet c d) ∈ h
  | .fkReal c d | .fkPost0 c _ d => ∃ u, (u, Ev.preForkRet c d) ∈ h
  | _ => True

theorem fromFork_mono {h h' : Hist} (hh : h ⊆ h') {d : Data} : FromFork h d → FromFork h' d
  | .inl e => .inl e
  | .inr ⟨u, c, e⟩ => .inr ⟨u, c, hh e⟩

theorem fromProc_mono {h h' : Hist} (hh : h ⊆ h') {d : Data} : FromProc h d → FromProc h' d
  | .inl e => .inl (fromFork_mono hh e)
  | .inr ⟨u, e⟩ => .inr ⟨u, hh e⟩

theorem fromThread_mono {h h' : Hist} (hh : h ⊆ h') {d : Data} : FromThread h d → FromThread h' d
  | .inl e => .inl e
  | .inr (.inl ⟨u, c, e⟩) => .inr (.inl ⟨u, c, hh e⟩)
  | .inr (.inr ⟨u, i, e⟩) => .inr (.inr ⟨u, i, hh e⟩)

theorem fsrc_mono {h h' : Hist} (hh : h ⊆ h') {f : Frame} (hf : fsrc h f) : fsrc h' f := by
  cases f <;> first
    | exact fromFork_mono hh hf
    | (obtain ⟨u, e⟩ := hf; exact ⟨u, hh e⟩)
    | exact trivial

/-- Main's data. -/
def MainSrc (h : Hist) (d : Data) : Prop := FromProc h d ∨ ∃ u, (u, Ev.realReset d) ∈ h

theorem mainSrc_mono {h h' : Hist} (hh : h ⊆ h') {d : Data} : MainSrc h d → MainSrc h' d
  | .inl e => .inl (fromProc_mono hh e)
  | .inr ⟨u, e⟩ => .inr ⟨u, hh e⟩

def Src2 (h : Hist) (d : Data) : Prop := FromThread h d ∨ FromProc h d

theorem src2_mono {h h' : Hist} (hh : h ⊆ h') {d : Data} : Src2 h d → Src2 h' d
  | .inl e => .inl (fromThread_mono hh e)
  | .inr e => .inr (fromProc_mono hh e)

structure SrcI (g : G) : Prop where
  ev : Always sourced g.tr
  kept : ∀ u d, (u, Ev.realReset d) ∈ g.tr → Src2 g.tr d
  main : MainSrc g.tr g.main.data
  slot : ∀ n, n ≠ .main → FromThread g.tr (g.nodes n).data

theorem src_all {g : G} (h : SrcI g) (n : NodeId) : Src2 g.tr (g.nodes n).data := by
  by_cases e : n = .main
  · rcases h.main with k | ⟨u, k⟩
    · rw [e]; exact .inr k
    · rw [e]; exact h.kept u _ k
  · exact .inl (h.slot n e)

/-- No event, no data. -/
theorem src_same {g g' : G} (h : SrcI g) (h1 : g'.tr = g.tr)
    (h2 : ∀ n, (g'.nodes n).data = (g.nodes n).data ∨ n ≠ .main ∧ FromThread g.tr (g'.nodes n).data) : SrcI g' := by
  refine ⟨h1 ▸ h.ev, h1 ▸ h.kept, ?_, fun n hn => ?_⟩
  · rw [h1]
    rcases h2 .main with e | e
    · simp only [G.main]; rw [e]; exact h.main
    · exact absurd rfl e.1
  · rw [h1]
    rcases h2 n with e | e
    · rw [e]; exact h.slot n hn
    · exact e.2

/-- An event. -/
theorem src_emit {g g' : G} (h : SrcI g) {t : Tid} {e : Ev} (h1 : g'.tr = (t, e) :: g.tr)
    (he : sourced g.tr t e) (hm : MainSrc g'.tr g'.main.data)
    (hs : ∀ n, n ≠ .main → FromThread g'.tr (g'.nodes n).data) : SrcI g' := by
  refine ⟨h1 ▸ ⟨he, h.ev⟩, fun u d hd => ?_, hm, hs⟩
  have hh : g.tr ⊆ g'.tr := by rw [h1]; exact List.subset_cons_self _ _
  rw [h1] at hd
  rcases List.mem_cons.1 hd with hd | hd
  · cases hd; exact src2_mono hh he
  · exact src2_mono hh (h.kept u d hd)

theorem src_emit' {g g' : G} (h : SrcI g) {t : Tid} {e : Ev} (h1 : g'.tr = (t, e) :: g.tr)
    (he : sourced g.tr t e)
    (h2 : ∀ n, (g'.nodes n).data = (g.nodes n).data ∨ n ≠ .main ∧ FromThread g.tr (g'.nodes n).data) : SrcI g' := by
  have hh : g.tr ⊆ g'.tr := by rw [h1]; exact List.subset_cons_self _ _
  refine src_emit h h1 he ?_ fun n hn => ?_
  · rcases h2 .main with e | e
    · simp only [G.main]; rw [e]; exact mainSrc_mono hh h.main
    · exact absurd rfl e.1
  · rcases h2 n with e | e
    · rw [e]; exact fromThread_mono hh (h.slot n hn)
    · exact fromThread_mono hh e.2

theorem reset_slot {g : G} {t : Tid} {n : NodeId} (hn : n ≠ .main) : (resetList g t).nodes n = g.nodes n := by
  unfold resetList; split <;> simp [hn]

theorem reset_main {g : G} {t : Tid} (h : SrcI g) : Src2 g.tr (resetList g t).main.data := by
  unfold resetList
  split
  · simp only [G.main, if_true, resetMain]
    split
    · exact src_all h _
    · split
      · exact src_all h _
      · exact src_all h _
  · exact src_all h _

theorem src_go {g g' : G} {t : Tid} {ok : Bool} {v : Nat} {f : Frame} {nx : Next}
    {sp : Option Frame} (hfree : .main ∉ g.free) (hrec : f.threadRec ≠ some .main)
    (hi : SrcI g) (hf : fsrc g.tr f) (h : fstep g t ok v f = some (g', nx, sp)) : SrcI g' := by
  have thr : ∀ {n}, f.threadRec = some n → n ≠ .main := fun e e' => hrec (e' ▸ e)
  cases f <;> fstep_cases h <;> first
    | exact hi
    | exact src_same hi rfl (fun _ => .inl rfl)
    | exact src_emit' hi rfl trivial (fun _ => .inl rfl)
    | (refine src_same hi rfl (fun x => .inl ?_); simp only [G.upd, listInit]; split <;> rfl)
    | (refine src_emit' hi rfl trivial (fun x => .inl ?_); simp only [G.emit, G.upd]; split <;> rfl)
    | (refine src_emit' hi rfl (src_all hi _) (fun x => .inl ?_); simp only [G.emit, G.upd]; split <;> rfl)
    | exact src_emit' hi rfl (src_all hi _) (fun _ => .inl rfl)
    | exact src_emit' hi rfl (hi.slot _ (thr rfl)) (fun _ => .inl rfl)
    | exact src_emit' hi rfl hi.main (fun _ => .inl rfl)
    | exact src_emit' hi rfl (.inl (.inl rfl)) (fun _ => .inl rfl)
    | exact src_emit' hi rfl hf (fun _ => .inl rfl)
    | (refine src_same hi rfl (fun x => ?_)
       simp only [G.upd]
       split
       · rename_i e
         exact .inr ⟨e ▸ thr rfl, .inl rfl⟩
       · exact .inl rfl)
    | skip
  case bpReset d =>
    refine src_emit hi (t := t) (e := .childReset d) (by simp [G.emit, G.upd]) hf ?_ fun n hn => ?_
    · refine mainSrc_mono (List.subset_cons_self _ _) (.inl (.inl ?_))
      have hf : FromFork g.tr d := hf
      simpa [G.emit, G.upd, G.main] using hf
    · simp only [G.emit, G.upd, if_neg hn, reset_slot hn, resetList_tr]
      exact fromThread_mono (List.subset_cons_self _ _) (hi.slot n hn)
  case bpCb =>
    refine src_emit hi rfl trivial ?_ fun n hn => ?_
    · exact .inl (.inr ⟨t, by simp [G.emit, G.upd, G.main]⟩)
    · simp only [G.emit, G.upd, if_neg hn]
      exact fromThread_mono (List.subset_cons_self _ _) (hi.slot n hn)
  case btInit n =>
    refine src_emit hi rfl trivial ?_ fun m hm => ?_
    · simp only [G.emit, G.upd, G.main, if_neg (Ne.symm (thr rfl))]
      exact mainSrc_mono (List.subset_cons_self _ _) hi.main
    · simp only [G.emit, G.upd]
      split
      · exact .inr (.inr ⟨t, _, List.mem_cons_self⟩)
      · exact fromThread_mono (List.subset_cons_self _ _) (hi.slot m hm)
  case rfReset =>
    refine src_emit hi (t := t) (e := .realReset (resetList g t).main.data) (by simp [G.emit]) (reset_main hi) ?_ fun n hn => ?_
    · exact .inr ⟨t, by simp [G.emit, G.main]⟩
    · simp only [G.emit, reset_slot hn, resetList_tr]
      exact fromThread_mono (List.subset_cons_self _ _) (hi.slot n hn)
  case h_2.refl c my st ar d a ha =>
    refine src_same hi rfl fun x => ?_
    simp only [G.upd]
    split
    · rename_i e
      exact .inr ⟨e ▸ (alloc_ne_main hfree ha).1, .inl rfl⟩
    · exact .inl rfl
  case pc6.refl c my n st ar d =>
    obtain ⟨u, hu⟩ := hf
    refine src_same hi rfl fun x => ?_
    simp only [G.upd]
    split
    · rename_i e
      exact .inr ⟨e ▸ thr rfl, .inr (.inl ⟨u, c, hu⟩)⟩
    · exact .inl rfl
  case pcIgn.isTrue.refl c st ar _ =>
    have h1 : SrcI ({ g with nextTid := g.nextTid + 1 }.emit t (.spawnIgn c g.nextTid st ar)) :=
      src_emit' (t := t) (e := .spawnIgn c g.nextTid st ar) hi rfl trivial fun _ => .inl rfl
    exact src_emit' (t := t) (e := .createRet c) h1 rfl trivial fun _ => .inl rfl
  case br0.isTrue.isTrue.refl sig _ _ =>
    exact src_emit' (src_emit' (g' := g.emit t (.brCall sig)) hi rfl trivial (fun _ => .inl rfl)) rfl trivial
      (fun _ => .inl rfl)
  case br0.isFalse.refl sig _ =>
    exact src_emit' (src_emit' (g' := g.emit t (.brCall sig)) hi rfl trivial (fun _ => .inl rfl)) rfl trivial
      (fun _ => .inl rfl)

theorem fsrc_go {g g' : G} {t : Tid} {ok : Bool} {v : Nat} {f : Frame} {nx : Next}
    {sp : Option Frame} (hf : fsrc g.tr f) (h : fstep g t ok v f = some (g', nx, sp)) :
    (∀ l, nx = .go l → ∀ x ∈ l, fsrc g'.tr x) ∧ ∀ x, sp = some x → fsrc g'.tr x := by
  have hh : g.tr ⊆ g'.tr := by
    obtain ⟨es, e⟩ := fstep_tr h
    rw [e]; exact List.subset_append_right _ _
  refine ⟨fun l hl x hx => ?_, fun x hx => ?_⟩
  · cases f <;> fstep_cases h <;> cases hl <;>
      (try simp only [List.mem_cons, List.not_mem_nil, or_false] at hx) <;>
      (try (rcases hx with rfl | rfl)) <;> (try subst hx) <;>
      first
      | exact trivial
      | exact fromFork_mono hh hf
      | (obtain ⟨u, e⟩ := hf; exact ⟨u, hh e⟩)
      | exact .inl rfl
      | exact ⟨t, List.mem_cons_self⟩
  · cases f <;> fstep_cases h <;> cases hx <;> exact trivial

theorem src_inv {A : S → Lbl → Prop} {s : S} (hs : ReachA A s) :
    SrcI s.g ∧ ∀ u h, h ∈ s.th u → fsrc s.g.tr h := by
  have h' : ReachA (fun s _ => ReachA A s) s := by
    induction hs with
    | init => exact .init
    | next hr _ hn ih => exact .next ih hr hn
  refine frames_inv (GI := SrcI) (FI := fun g _ h => fsrc g.tr h) ?_ trivial ?_ ?_ (fun _ _ _ h => h) ?_ ?_ ?_ ?_ ?_
    ?_ h'
  · refine ⟨trivial, nofun, .inl (.inl (.inl rfl)), fun n _ => .inl ?_⟩
    cases n <;> rfl
  · intro s t f rest ok v g' nx sp hA ht hG hF h
    have hff := hF t f (by rw [ht]; exact List.mem_cons_self)
    obtain ⟨hfree, hrec⟩ := rec_inv hA
    obtain ⟨h3, h4⟩ := fsrc_go hff h
    refine ⟨src_go hfree (hrec t f (by rw [ht]; exact List.mem_cons_self)) hG hff h, fun u x hx => ?_, h3, h4⟩
    obtain ⟨es, e⟩ := fstep_tr h
    refine fsrc_mono ?_ hx
    rw [e]; exact List.subset_append_right _ _
  · exact fun g h => src_same h rfl fun _ => .inl rfl
  · intro g t h _ hp
    cases h <;> first | exact trivial | (cases hp; done) | skip
    rename_i b d
    cases b
    · cases d
      · exact .inl rfl
      · cases hp
    · cases hp
  · intro g t f n _ _; exact trivial
  · intro g t real h; exact src_emit' h rfl trivial fun _ => .inl rfl
  · intro g t real u x h; exact fsrc_mono (List.subset_cons_self _ _) h
  · rintro g t c d ⟨u, h⟩
    exact ⟨.inr ⟨u, c, List.mem_cons_of_mem _ h⟩, trivial⟩
  · intro g t _; exact trivial

/-! ### The default callbacks -/

theorem default_zero {h : Hist} (hs : Always sourced h) (hd : Always byDefault h) :
    ∀ t e d, (t, e) ∈ h → e.datum = some d → d = 0 := by
  induction h with
  | nil => nofun
  | cons x h ih =>
    obtain ⟨u, y⟩ := x
    have ih := ih hs.2 hd.2
    have hs := hs.1
    have hd := hd.1
    have fork : ∀ {d}, FromFork h d → d = 0 := by
      rintro d (e | ⟨u, c, e⟩)
      · exact e
      · exact ih u _ d e rfl
    have proc : ∀ {d}, FromProc h d → d = 0 := by
      rintro d (e | ⟨u, e⟩)
      · exact fork e
      · exact ih u _ d e rfl
    have thr : ∀ {d}, FromThread h d → d = 0 := by
      rintro d (e | ⟨u, c, e⟩ | ⟨u, i, e⟩)
      · exact e
      · exact ih u _ d e rfl
      · exact ih u _ d e rfl
    intro t e d hm he
    rcases List.mem_cons.1 hm with hm | hm
    · cases hm
      cases y <;> first | (cases he; done) | skip
      all_goals cases he
      all_goals first
        | exact fork hs
        | exact thr hs
        | exact hd
        | (rcases hs with e | e <;> first | exact thr e | exact proc e)
        | (obtain ⟨u, e⟩ := hs; exact ih u _ d e rfl)
        | (obtain ⟨u, e⟩ := hd; exact ih u _ d e rfl)
        | (obtain ⟨u, i, e⟩ := hd; exact ih u _ d e rfl)
        | (rcases hs with e | ⟨u, e⟩ <;> first | exact proc e | exact ih u _ d e rfl)
    · exact ih t e d hm he

end Libmonitor.Proc
