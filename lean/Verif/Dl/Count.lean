import Verif.Dl.Calls

/-! # Counting events of bracketed sequences -/

namespace Libmonitor.Dl

open Spec

/-- Starting from `k`, adding one for each `q` and taking one off for each `p` never goes
below zero. -/
def Dom (p q : CEv → Bool) : Nat → List CEv → Prop
  | _, [] => True
  | k, e :: l => (p e).toNat ≤ k + (q e).toNat ∧ Dom p q (k + (q e).toNat - (p e).toNat) l

variable {p q : CEv → Bool}

theorem Dom.add : ∀ {j k : Nat} {a b : List CEv}, Dom p q j a → Dom p q k b →
    Dom p q (j + k) (a ++ b)
  | j, k, [], b, _, h => by
    induction b generalizing k with
    | nil => trivial
    | cons e b ih =>
      obtain ⟨h1, h2⟩ := h
      refine ⟨by omega, ?_⟩
      have := ih _ h2
      rw [List.nil_append] at this
      have e1 : j + k + (q e).toNat - (p e).toNat = j + (k + (q e).toNat - (p e).toNat) := by omega
      rw [e1]; exact this
  | j, k, e :: a, b, h, hb => by
    obtain ⟨h1, h2⟩ := h
    refine ⟨by omega, ?_⟩
    have := h2.add hb
    have e1 : j + k + (q e).toNat - (p e).toNat = j + (q e).toNat - (p e).toNat + k := by omega
    rw [e1]; exact this

theorem Dom.skip {k : Nat} {a b : List CEv} (ha : Dom p q 0 a) (hb : Dom p q k b) :
    Dom p q k (a ++ b) := by
  simpa using ha.add hb

theorem Dom.init : ∀ {k : Nat} {a b : List CEv}, Dom p q k (a ++ b) → Dom p q k a
  | _, [], _, _ => trivial
  | _, _ :: _, _, ⟨h1, h2⟩ => ⟨h1, h2.init⟩

theorem Dom.le : ∀ {k : Nat} {a : List CEv}, Dom p q k a → a.countP p ≤ k + a.countP q
  | _, [], _ => by simp
  | k, e :: a, ⟨h1, h2⟩ => by
    have := h2.le
    rw [List.countP_cons, List.countP_cons]
    cases hp : p e <;> cases hq : q e <;> simp [hp, hq] at * <;> omega

/-- The skeletons of the four kinds of calls decide. -/
theorem bracketed_dom
    (h1 : ∀ x f r, Dom p q 0 [.preOpen x f, .open x f, .openRet x f r, .postOpen x f r,
      .gotOpen x f r])
    (h2 : ∀ h r, Dom p q 0 [.preClose h, .close h, .closeRet h r, .postClose h r, .gotClose h r])
    (h3 : ∀ x f r, Dom p q 0 [.open x f, .openRet x f r, .gotOpen x f r])
    (h4 : ∀ h r, Dom p q 0 [.close h, .closeRet h r, .gotClose h r])
    (h5 : Dom p q 0 [.left])
    {l : List CEv} (hb : Bracketed l) : Dom p q 0 l := by
  induction hb with
  | nil => trivial
  | append _ _ ih1 ih2 => exact ih1.skip ih2
  | «open» x f r _ _ _ ih1 ih2 ih3 =>
    obtain ⟨k1, k2, k3, k4, k5⟩ := h1 x f r
    have a3 := ih3.skip k5
    have a2 := ih2.skip (b := _ :: _ :: _) ⟨k3, k4, a3⟩
    have a1 := ih1.skip (b := _ :: _) ⟨k2, a2⟩
    have a0 : Dom p q 0 (_ :: _) := ⟨k1, a1⟩
    simpa only [List.cons_append, List.append_assoc] using a0
  | close x r _ _ _ ih1 ih2 ih3 =>
    obtain ⟨k1, k2, k3, k4, k5⟩ := h2 x r
    have a3 := ih3.skip k5
    have a2 := ih2.skip (b := _ :: _ :: _) ⟨k3, k4, a3⟩
    have a1 := ih1.skip (b := _ :: _) ⟨k2, a2⟩
    have a0 : Dom p q 0 (_ :: _) := ⟨k1, a1⟩
    simpa only [List.cons_append, List.append_assoc] using a0
  | realOpen x f r _ ih =>
    obtain ⟨k1, k2⟩ := h3 x f r
    have a0 : Dom p q 0 (_ :: _) := ⟨k1, ih.skip k2⟩
    simpa only [List.cons_append, List.append_assoc] using a0
  | realClose x r _ ih =>
    obtain ⟨k1, k2⟩ := h4 x r
    have a0 : Dom p q 0 (_ :: _) := ⟨k1, ih.skip k2⟩
    simpa only [List.cons_append, List.append_assoc] using a0
  | left _ ih => exact ih.init.skip h5

theorem opening_le
    (h1 : ∀ x f r, Dom p q 0 [.preOpen x f, .open x f, .openRet x f r, .postOpen x f r,
      .gotOpen x f r])
    (h2 : ∀ h r, Dom p q 0 [.preClose h, .close h, .closeRet h r, .postClose h r, .gotClose h r])
    (h3 : ∀ x f r, Dom p q 0 [.open x f, .openRet x f r, .gotOpen x f r])
    (h4 : ∀ h r, Dom p q 0 [.close h, .closeRet h r, .gotClose h r])
    (h5 : Dom p q 0 [.left])
    {l : List CEv} (hb : Opening l) : l.countP p ≤ l.countP q := by
  obtain ⟨r, -, hb⟩ := hb
  simpa using (bracketed_dom h1 h2 h3 h4 h5 hb).init.le

end Libmonitor.Dl
