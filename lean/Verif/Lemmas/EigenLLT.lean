import Verif.Model.EigenQR
import Verif.Lemmas.LDLTSolve
import Verif.Spec.NullSpaceSpec

/-!
# Triangular solves and Cholesky (exact arithmetic)
-/

set_option autoImplicit false

namespace MiniOpt.QR

open MiniOpt MiniOpt.Spec

variable {ι : Type} [DecidableEq ι]

theorem forward_cons (L : ι → ι → ℝ) (b : ι → ℝ) (pre rest : List ι) (k : ι) (y : ι → ℝ) :
    forward L b pre (k :: rest) y = forward L b (pre ++ [k]) rest
      (Function.update y k ((b k - (pre.map fun j => L k j * y j).sum) / L k k)) := by
  cases pre with
  | nil => rw [forward]; simp
  | cons a l => rfl

theorem forward_spec (L : ι → ι → ℝ) (b : ι → ℝ) : ∀ (rest pre : List ι) (y : ι → ℝ), (pre ++ rest).Nodup →
    (∀ i, i ∉ rest → forward L b pre rest y i = y i) ∧
    ∀ (a : List ι) (k : ι) (c : List ι), rest = a ++ k :: c → L k k ≠ 0 →
      L k k * forward L b pre rest y k = b k - ((pre ++ a).map fun j => L k j * forward L b pre rest y j).sum
  | [], pre, y, _ => ⟨fun _ _ => rfl, fun a k c h => by simp at h⟩
  | k :: rest, pre, y, hn => by
    have hn' : ((pre ++ [k]) ++ rest).Nodup := by simpa using hn
    have hkr : k ∉ rest := (List.nodup_cons.mp (List.nodup_append.mp hn).2.1).1
    set y' := Function.update y k ((b k - (pre.map fun j => L k j * y j).sum) / L k k) with hy'
    have hrec : forward L b pre (k :: rest) y = forward L b (pre ++ [k]) rest y' := forward_cons L b pre rest k y
    obtain ⟨ih1, ih2⟩ := forward_spec L b rest (pre ++ [k]) y' hn'
    rw [hrec]
    constructor
    · intro i hi
      rw [List.mem_cons, not_or] at hi
      rw [ih1 i hi.2, hy', Function.update_of_ne hi.1]
    · intro a k' c h hne
      cases a with
      | nil =>
        simp only [List.nil_append, List.cons.injEq] at h
        obtain ⟨rfl, rfl⟩ := h
        have e : (pre.map fun j => L k j * forward L b (pre ++ [k]) rest y' j) = pre.map fun j => L k j * y j := by
          refine List.map_congr_left fun j hj => ?_
          have hjk : j ≠ k := fun e => (List.nodup_append.mp hn).2.2 j hj k (by simp) e
          have hjr : j ∉ rest := fun h => (List.nodup_append.mp hn).2.2 j hj j (by simp [h]) rfl
          rw [ih1 j hjr, hy', Function.update_of_ne hjk]
        rw [List.append_nil, e, ih1 k hkr, hy', Function.update_self]
        field_simp
      | cons a0 a =>
        simp only [List.cons_append, List.cons.injEq] at h
        obtain ⟨rfl, rfl⟩ := h
        rw [ih2 a k' c rfl hne]
        simp

variable [Fintype ι]

/-- Substitution solves a triangular system. -/
theorem forward_solves {L : ι → ι → ℝ} {order : List ι} (hn : order.Nodup) (hu : order.Pairwise fun a b => L a b = 0)
    (hd : ∀ k ∈ order, L k k ≠ 0) (b : ι → ℝ) :
    (∀ i, i ∉ order → forward L b [] order (fun _ => 0) i = 0) ∧
    ∀ k ∈ order, ∑ j, L k j * forward L b [] order (fun _ => 0) j = b k := by
  obtain ⟨h1, h2⟩ := forward_spec L b order [] (fun _ => 0) (by simpa using hn)
  refine ⟨h1, fun k hk => ?_⟩
  rw [← LDLT.sum_list_univ (a := order) hn (g := fun j => L k j * forward L b [] order (fun _ => 0) j)
    (fun i hi => by simp only [h1 i hi, mul_zero])]
  have hdk := hd k hk
  obtain ⟨a, c, rfl⟩ := List.append_of_mem hk
  have h := h2 a k c rfl hdk
  rw [List.nil_append] at h
  rw [List.map_append, List.sum_append, List.map_cons, List.sum_cons, h]
  have hz : (c.map fun j => L k j * forward L b [] (a ++ k :: c) (fun _ => 0) j).sum = 0 :=
    LDLT.sum_zero_part fun j hj => (List.pairwise_cons.mp (List.pairwise_append.mp hu).2.1).1 j hj
  rw [hz]; ring

theorem backward_solves {L : ι → ι → ℝ} {order : List ι} (hn : order.Nodup) (hu : order.Pairwise fun a b => L a b = 0)
    (hd : ∀ k ∈ order, L k k ≠ 0) (b : ι → ℝ) :
    (∀ i, i ∉ order → forward (fun i j => L j i) b [] order.reverse (fun _ => 0) i = 0) ∧
    ∀ k ∈ order, ∑ j, L j k * forward (fun i j => L j i) b [] order.reverse (fun _ => 0) j = b k := by
  have h := forward_solves (L := fun i j => L j i) (order := order.reverse) (List.nodup_reverse.mpr hn)
    (List.pairwise_reverse.mpr hu) (fun k hk => hd k (List.mem_reverse.mp hk)) b
  exact ⟨fun i hi => h.1 i (by simpa using hi), fun k hk => h.2 k (by simpa using hk)⟩

/-- The factorisation after the columns `pre`. -/
structure CInv (S : ι → ι → ℝ) (pre rest : List ι) (L : ι → ι → ℝ) : Prop where
  nodup : (pre ++ rest).Nodup
  off : ∀ i j, j ∉ pre → L i j = 0
  upper : pre.Pairwise fun a b => L a b = 0
  pos : ∀ j ∈ pre, 0 < L j j
  prod : ∀ i ∈ pre ++ rest, ∀ j ∈ pre, S i j = ∑ l, L i l * L j l

omit [DecidableEq ι] in
theorem CInv.nodup' {S : ι → ι → ℝ} {pre rest : List ι} {L : ι → ι → ℝ} (h : CInv S pre rest L) : pre.Nodup :=
  (List.nodup_append.mp h.nodup).1

theorem schur_real {S L : ι → ι → ℝ} {pre rest : List ι} (h : CInv S pre rest L) (i k : ι) :
    schur S L pre i k = S i k - ∑ l, L i l * L k l := by
  have e : schur S L pre i k = S i k - (pre.map fun j => L i j * L k j).sum := by
    unfold schur
    cases pre <;> simp
  rw [e, LDLT.sum_list_univ (List.nodup_append.mp h.nodup).1 fun l hl => by rw [h.off i l hl, zero_mul]]

theorem cinv_step {S L : ι → ι → ℝ} (hs : ∀ i j, S i j = S j i) {pre rs : List ι} {k : ι} (h : CInv S pre (k :: rs) L)
    {d : ℝ} (hd : 0 < d) (hx : d * d = schur S L pre k k) :
    CInv S (pre ++ [k]) rs fun i j =>
        if j = k then (if i = k then d else if i ∈ rs then schur S L pre i k / d else L i j) else L i j := by
  have hkp : k ∉ pre := fun hk => (List.nodup_append.mp h.nodup).2.2 k hk k (by simp) rfl
  have hkr : k ∉ rs := (List.nodup_cons.mp (List.nodup_append.mp h.nodup).2.1).1
  have hrp : ∀ i ∈ rs, i ∉ pre := fun i hi hp => (List.nodup_append.mp h.nodup).2.2 i hp i (by simp [hi]) rfl
  set L' : ι → ι → ℝ := fun i j =>
    if j = k then (if i = k then d else if i ∈ rs then schur S L pre i k / d else L i j) else L i j with hL'
  have hold : ∀ i j, j ≠ k → L' i j = L i j := fun i j hj => by simp [hL', hj]
  have hdiag : L' k k = d := by simp [hL']
  have hnew : ∀ i ∈ rs, L' i k = schur S L pre i k / d := fun i hi => by
    have : i ≠ k := fun e => hkr (e ▸ hi)
    simp [hL', this, hi]
  have hup : ∀ i ∈ pre, L' i k = 0 := fun i hi => by
    have h1 : i ≠ k := fun e => hkp (e ▸ hi)
    have h2 : i ∉ rs := fun hr => hrp i hr hi
    simp [hL', h1, h2, h.off i k hkp]
  have hsum : ∀ i j, ∑ l, L' i l * L' j l = ∑ l, L i l * L j l + L' i k * L' j k := fun i j => by
    have e : ∀ l, L' i l * L' j l = L i l * L j l + if l = k then L' i k * L' j k else 0 := fun l => by
      by_cases hl : l = k
      · subst hl; rw [if_pos rfl, h.off i l hkp]; ring
      · rw [if_neg hl, hold i l hl, hold j l hl, add_zero]
    rw [Finset.sum_congr rfl fun l _ => e l, Finset.sum_add_distrib, Finset.sum_ite_eq' Finset.univ k, if_pos (Finset.mem_univ k)]
  refine ⟨by simpa using h.nodup, ?_, ?_, ?_, ?_⟩
  · intro i j hj
    rw [List.mem_append, List.mem_singleton, not_or] at hj
    rw [hold i j hj.2, h.off i j hj.1]
  · rw [List.pairwise_append]
    refine ⟨h.upper.imp_of_mem fun {a b} _ hb hab => ?_, List.pairwise_singleton _ _, fun a ha b hb => ?_⟩
    · rw [hold a b fun e => hkp (e ▸ hb)]; exact hab
    · rw [List.mem_singleton] at hb; subst hb; exact hup a ha
  · intro j hj
    rw [List.mem_append, List.mem_singleton] at hj
    rcases hj with hj | rfl
    · rw [hold j j fun e => hkp (e ▸ hj)]; exact h.pos j hj
    · rw [hdiag]; exact hd
  · intro i hi j hj
    rw [hsum]
    have hi' : i ∈ pre ++ k :: rs := by simpa using hi
    rw [List.mem_append, List.mem_singleton] at hj
    rcases hj with hj | rfl
    · rw [h.prod i hi' j hj, hup j hj]; ring
    · rw [hdiag]
      rw [List.mem_append, List.mem_cons] at hi'
      rcases hi' with hi' | rfl | hi'
      · rw [hup i hi', hs i j, h.prod j (by simp) i hi']
        simp only [zero_mul, add_zero]
        exact Finset.sum_congr rfl fun l _ => mul_comm _ _
      · rw [hdiag, hx, schur_real h]; ring
      · rw [hnew i hi', schur_real h]; field_simp; ring

/-- A pivot that is not positive belongs to a direction without positive curvature. -/
theorem bad_direction {S L : ι → ι → ℝ} (hs : ∀ i j, S i j = S j i) {pre rs : List ι} {k : ι} (h : CInv S pre (k :: rs) L) :
    ∃ v : ι → ℝ, v ≠ 0 ∧ ∑ i, ∑ j, v i * S i j * v j = schur S L pre k k := by
  have hkp : k ∉ pre := fun hk => (List.nodup_append.mp h.nodup).2.2 k hk k (by simp) rfl
  obtain ⟨w1, w2⟩ := backward_solves (L := L) (List.nodup_append.mp h.nodup).1 h.upper (fun j hj => (h.pos j hj).ne')
    (fun l => -L k l)
  set w := forward (fun i j => L j i) (fun l => -L k l) [] pre.reverse (fun _ => 0) with hw
  set v : ι → ℝ := fun i => if i = k then 1 else w i with hv
  have hvk : v k = 1 := by simp [hv]
  have hcol : ∀ l, ∑ i, v i * L i l = 0 := fun l => by
    by_cases hl : l ∈ pre
    · have e : ∀ i, v i * L i l = L i l * w i + if i = k then L k l else 0 := fun i => by
        by_cases hi : i = k
        · subst hi; rw [hvk, if_pos rfl, w1 i hkp]; ring
        · simp [hv, hi, mul_comm]
      simp_rw [e]
      rw [Finset.sum_add_distrib, w2 l hl]
      simp
    · exact Finset.sum_eq_zero fun i _ => by rw [h.off i l hl, mul_zero]
  refine ⟨v, fun e => by rw [e] at hvk; simp at hvk, ?_⟩
  have hterm : ∀ i j, v i * S i j * v j
      = (∑ l, (v i * L i l) * (v j * L j l)) + if i = k then (if j = k then schur S L pre k k else 0) else 0 := fun i j => by
    have hzero : ∀ i, i ≠ k → i ∉ pre → v i = 0 := fun i h1 h2 => by simp [hv, h1, w1 i h2]
    have hm : (∑ l, (v i * L i l) * (v j * L j l)) = v i * (∑ l, L i l * L j l) * v j := by
      rw [Finset.mul_sum, Finset.sum_mul]
      exact Finset.sum_congr rfl fun l _ => by ring
    rw [hm]
    by_cases hi : i = k
    · by_cases hj : j = k
      · subst hi; subst hj
        rw [if_pos rfl, if_pos rfl, schur_real h, hvk]; ring
      · rw [if_pos hi, if_neg hj]
        by_cases hjp : j ∈ pre
        · rw [h.prod i (by simp [hi]) j hjp, add_zero]
        · rw [hzero j hj hjp]; ring
    · rw [if_neg hi, add_zero]
      by_cases hip : i ∈ pre
      · by_cases hj : j = k
        · rw [hs i j, h.prod j (by simp [hj]) i hip]
          congr 2
          exact Finset.sum_congr rfl fun l _ => mul_comm _ _
        · by_cases hjp : j ∈ pre
          · rw [h.prod i (by simp [hip]) j hjp]
          · rw [hzero j hj hjp]; ring
      · rw [hzero i hi hip]; ring
  simp_rw [hterm, Finset.sum_add_distrib]
  have h0 : ∑ i, ∑ j, ∑ l, (v i * L i l) * (v j * L j l) = 0 := by
    refine Finset.sum_eq_zero fun i _ => ?_
    rw [Finset.sum_comm]
    refine Finset.sum_eq_zero fun l _ => ?_
    rw [← Finset.mul_sum, hcol l, mul_zero]
  rw [h0]
  simp

theorem cholesky_spec {S : ι → ι → ℝ} (hs : ∀ i j, S i j = S j i) : ∀ (rest pre : List ι) (L : ι → ι → ℝ), CInv S pre rest L →
    (cholesky S pre rest L = none ∧ ∃ v : ι → ℝ, v ≠ 0 ∧ ∑ i, ∑ j, v i * S i j * v j ≤ 0) ∨
    ∃ L', cholesky S pre rest L = some L' ∧ CInv S (pre ++ rest) [] L'
  | [], pre, L, h => Or.inr ⟨L, rfl, by simpa using h⟩
  | k :: rs, pre, L, h => by
    by_cases hx : schur S L pre k k ≤ 0
    · left
      obtain ⟨v, hv, e⟩ := bad_direction hs h
      exact ⟨by simp [cholesky, hx], v, hv, e ▸ hx⟩
    · have hpos := not_le.mp hx
      have hstep := cinv_step hs h (d := Real.sqrt (schur S L pre k k)) (Real.sqrt_pos.mpr hpos) (Real.mul_self_sqrt hpos.le)
      have ih := cholesky_spec hs rs (pre ++ [k]) _ hstep
      have e : cholesky S pre (k :: rs) L = cholesky S (pre ++ [k]) rs fun i j =>
        if j = k then (if i = k then Real.sqrt (schur S L pre k k)
          else if i ∈ rs then schur S L pre i k / Real.sqrt (schur S L pre k k) else L i j) else L i j := by
        rw [cholesky]
        dsimp only
        rw [if_neg hx]
        rfl
      rw [e]
      simpa using ih

/-- The Cholesky factorisation of a matrix succeeds exactly if it is positive definite, and then solves with it. -/
theorem llt_spec {m : Nat} (S : Fin m → Fin m → ℝ) (hs : ∀ i j, S i j = S j i) :
    (llt S = none ↔ ¬ ∀ y : Fin m → ℝ, y ≠ 0 → 0 < ∑ i, ∑ j, y i * S i j * y j) ∧
    ∀ f, llt S = some f → ∀ rhs i, ∑ j, S i j * f rhs j = rhs i := by
  have h0 : CInv S [] (List.finRange m) (fun _ _ => 0) :=
    ⟨by simpa using List.nodup_finRange m, fun _ _ _ => rfl, List.Pairwise.nil, fun j h => by simp at h, fun i _ j h => by simp at h⟩
  rcases cholesky_spec hs _ _ _ h0 with ⟨h, v, hv, hle⟩ | ⟨L, h, hL⟩
  · have e : llt S = none := by unfold llt; rw [h]
    refine ⟨⟨fun _ hp => not_lt.mpr hle (hp v hv), fun _ => e⟩, fun f hf => by rw [e] at hf; cases hf⟩
  · have e : llt S = some fun b => forward (fun i j => L j i) (forward L b [] (List.finRange m) (fun _ => 0)) []
        (List.finRange m).reverse (fun _ => 0) := by unfold llt; rw [h]
    rw [List.nil_append] at hL
    have hmem : ∀ i, i ∈ List.finRange m := List.mem_finRange
    have hprod : ∀ i j, S i j = ∑ l, L i l * L j l := fun i j => hL.prod i (by simp) j (hmem j)
    have hne : ∀ k ∈ List.finRange m, L k k ≠ 0 := fun k hk => (hL.pos k hk).ne'
    refine ⟨⟨fun h' => (by rw [e] at h'; cases h'), fun hn => absurd (fun y hy => ?_) hn⟩, fun f hf rhs i => ?_⟩
    · have hq : ∑ i, ∑ j, y i * S i j * y j = ∑ l, (∑ i, y i * L i l) * (∑ i, y i * L i l) := by
        simp_rw [Finset.sum_mul_sum]
        refine Eq.trans ?_ Finset.sum_comm
        refine Finset.sum_congr rfl fun i _ => ?_
        refine Eq.trans ?_ Finset.sum_comm
        refine Finset.sum_congr rfl fun j _ => ?_
        rw [hprod, Finset.mul_sum, Finset.sum_mul]
        exact Finset.sum_congr rfl fun l _ => by ring
      rw [hq]
      have hnn : ∀ l ∈ (Finset.univ : Finset (Fin m)), 0 ≤ (∑ i, y i * L i l) * (∑ i, y i * L i l) := fun l _ => mul_self_nonneg _
      refine lt_of_le_of_ne (Finset.sum_nonneg hnn) fun h => hy ?_
      have hz : ∀ l, ∑ i, y i * L i l = 0 := fun l =>
        mul_self_eq_zero.mp ((Finset.sum_eq_zero_iff_of_nonneg hnn).mp h.symm l (Finset.mem_univ l))
      -- `y = 0`, tested against the solutions of `L w = e`
      funext i
      obtain ⟨-, w⟩ := forward_solves (L := L) hL.nodup' hL.upper hne (fun j => if j = i then 1 else 0)
      have h1 : ∑ j, y j * (if j = i then (1 : ℝ) else 0) = 0 := by
        have : ∀ j, y j * (if j = i then (1 : ℝ) else 0)
            = ∑ l, (y j * L j l) * forward L (fun j => if j = i then 1 else 0) [] (List.finRange m) (fun _ => 0) l := fun j => by
          rw [← w j (hmem j), Finset.mul_sum]
          exact Finset.sum_congr rfl fun l _ => by ring
        simp_rw [this]
        rw [Finset.sum_comm]
        refine Finset.sum_eq_zero fun l _ => ?_
        rw [← Finset.sum_mul, hz l, zero_mul]
      simpa using h1
    · rw [e] at hf
      have hf' := Option.some.inj hf
      subst hf'
      obtain ⟨-, w1⟩ := forward_solves (L := L) hL.nodup' hL.upper hne rhs
      obtain ⟨-, w2⟩ := backward_solves (L := L) hL.nodup' hL.upper hne (forward L rhs [] (List.finRange m) fun _ => 0)
      set g := forward (fun i j => L j i) (forward L rhs [] (List.finRange m) fun _ => 0) [] (List.finRange m).reverse (fun _ => 0)
      show ∑ j, S i j * g j = rhs i
      rw [← w1 i (hmem i)]
      simp_rw [hprod, Finset.sum_mul]
      rw [Finset.sum_comm]
      refine Finset.sum_congr rfl fun l _ => ?_
      rw [← w2 l (hmem l), Finset.mul_sum]
      exact Finset.sum_congr rfl fun j _ => by ring

end MiniOpt.QR
