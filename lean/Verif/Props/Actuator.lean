import Verif.Props.TransformDerivatives
import Verif.Lemmas.Actuator
import Mathlib.Analysis.Calculus.FDeriv.Pi

/-!
# C73: the derivatives reported by `ActuatorChain::Update` (exact arithmetic)
-/

set_option autoImplicit false

namespace MiniOpt.Props

open scoped Quaternion
open MiniOpt.TC MiniOpt.TC.Spec

variable {N : Nat}

/-- Coordinate `k`, or zero. -/
noncomputable def projL (N k : Nat) : (Fin N → ℝ) →L[ℝ] ℝ :=
  if h : k < N then ContinuousLinearMap.proj ⟨k, h⟩ else 0

theorem projL_apply (k : Nat) (y : Fin N → ℝ) : ((List.ofFn y)[k]?).getD 0 = projL N k y := by
  unfold projL
  by_cases h : k < N
  · rw [dif_pos h, List.getElem?_eq_getElem (by simpa using h)]
    simp
  · rw [dif_neg h, List.getElem?_eq_none (by simpa using h)]
    simp

theorem headD_drop (l : List ℝ) (k : Nat) : (l.drop k).headD 0 = (l[k]?).getD 0 := by
  rw [List.headD_eq_head?_getD, List.head?_drop]

/-- Derivatives of the entries after substitution. -/
noncomputable def rows (N : Nat) : List (Bool × ℝ) → Nat → List ((Fin N → ℝ) →L[ℝ] ℝ)
  | [], _ => []
  | (true, _) :: r, k => projL N k :: rows N r (k + 1)
  | (false, _) :: r, k => 0 :: rows N r k

theorem hasFDerivAt_subst (l : List (Bool × ℝ)) (k i : Nat) (x : Fin N → ℝ) :
    HasFDerivAt (fun y : Fin N → ℝ => at3 (subst l ((List.ofFn y).drop k)) i) (((rows N l k)[i]?).getD 0) x := by
  induction l generalizing k i with
  | nil =>
    simp only [subst, rows, at3, List.getElem?_nil, Option.getD_none]
    exact hasFDerivAt_const _ _
  | cons e r ih =>
    obtain ⟨b, d⟩ := e
    cases b with
    | false =>
      cases i with
      | zero =>
        simp only [subst, rows, at3, List.getElem?_cons_zero, Option.getD_some]
        exact hasFDerivAt_const _ _
      | succ i =>
        simp only [subst, rows, at3, List.getElem?_cons_succ]
        exact ih k i
    | true =>
      cases i with
      | zero =>
        simp only [subst, rows, at3, List.getElem?_cons_zero, Option.getD_some, headD_drop, projL_apply]
        exact (projL N k).hasFDerivAt
      | succ i =>
        simp only [subst, rows, at3, List.getElem?_cons_succ, List.tail_drop]
        exact ih (k + 1) i

/-- Derivative of the three entries. -/
noncomputable def rowsL (N : Nat) (l : List (Bool × ℝ)) (k : Nat) : (Fin N → ℝ) →L[ℝ] V3 ℝ :=
  ContinuousLinearMap.pi fun i : Fin 3 => ((rows N l k)[i.val]?).getD 0

theorem hasFDerivAt_vec3 (l : List (Bool × ℝ)) (k : Nat) (x : Fin N → ℝ) :
    HasFDerivAt (fun y : Fin N → ℝ => vec3 (subst l ((List.ofFn y).drop k))) (rowsL N l k) x := by
  apply hasFDerivAt_pi.2
  intro i
  have h := hasFDerivAt_subst l k i.val x
  fin_cases i <;> exact h

/-- Multiplication by a matrix. -/
noncomputable def mvecL (M : M3 ℝ) : V3 ℝ →L[ℝ] V3 ℝ :=
  LinearMap.toContinuousLinearMap (Matrix.mulVecLin M)

theorem mulVec_eq (M : M3 ℝ) (v : V3 ℝ) : Matrix.mulVec M v = mvec M v := by
  funext i
  simp [Matrix.mulVec, dotProduct, Fin.sum_univ_three, mvec, matVec, dot, List.ofFn_succ]
  ring

@[simp] theorem mvecL_apply (M : M3 ℝ) (v : V3 ℝ) : mvecL M v = mvec M v := mulVec_eq M v

theorem rows_zero (l : List (Bool × ℝ)) (h : countTrue l = 0) (k i : Nat) : ((rows N l k)[i]?).getD 0 = 0 := by
  induction l generalizing i with
  | nil => simp [rows]
  | cons e r ih =>
    obtain ⟨b, d⟩ := e
    cases b with
    | true => simp [countTrue] at h
    | false =>
      cases i with
      | zero => simp [rows]
      | succ i =>
        simp only [rows, List.getElem?_cons_succ]
        exact ih (by simpa [countTrue] using h) i

/-- Where the parameters of link `i` begin. -/
def off (links : List (Link ℝ)) (i : Nat) : Nat := total (links.take i)

theorem off_cons_succ (l : Link ℝ) (ls : List (Link ℝ)) (i : Nat) : off (l :: ls) (i + 1) = l.activeCount + off ls i := by
  simp [off, total]

theorem posesOf_ofFn (ext : Ext ℝ) (links : List (Link ℝ)) (ps : List ℝ) :
    posesOf ext links ps = List.ofFn fun i : Fin links.length => linkPose ext links[i] (ps.drop (off links i)) := by
  induction links generalizing ps with
  | nil => rfl
  | cons l ls ih =>
    rw [posesOf, ih]
    apply List.ext_getElem
    · simp
    · intro i h1 h2
      cases i with
      | zero => simp [off, total]
      | succ i => simp [off_cons_succ, List.drop_drop]

/-- Right velocity of a link. -/
noncomputable def omega (N : Nat) (ext : Ext ℝ) (l : Link ℝ) (k : Nat) (ps : List ℝ) : (Fin N → ℝ) →L[ℝ] V3 ℝ :=
  (mvecL (ext.so3 (l.angles (ps.drop k))).2).comp (rowsL N l.rotEntries k)

/-- Velocity of the translation of a link. -/
noncomputable def tau (N : Nat) (l : Link ℝ) (k : Nat) : (Fin N → ℝ) →L[ℝ] V3 ℝ :=
  rowsL N l.transEntries (k + l.activeRotationCount)

theorem linkPose_unit {ext : Ext ℝ} (hext : EulerContract ext) (l : Link ℝ) (hu : IsUnitQ l.pose.rotation) (ps : List ℝ) :
    IsUnitQ (linkPose ext l ps).rotation := by
  unfold linkPose
  simp only
  split
  · exact hu
  · exact hext.unit _

theorem linkPose_rotation_deriv {ext : Ext ℝ} (hext : EulerContract ext) (l : Link ℝ) (k : Nat) (x : Fin N → ℝ) :
    HasRightDerivative (fun y : Fin N → ℝ => (linkPose ext l ((List.ofFn y).drop k)).rotation)
      (omega N ext l k (List.ofFn x)) x := by
  unfold linkPose
  by_cases h0 : l.activeRotationCount = 0
  · simp only [if_pos h0]
    have e : omega N ext l k (List.ofFn x) = 0 := by
      have hz : rowsL N l.rotEntries k = 0 := by
        ext1 h
        funext i
        have := rows_zero (N := N) l.rotEntries (by rw [countTrue_rot, h0]) k i.val
        simp [rowsL, this]
      simp [omega, hz]
    rw [e]
    refine ⟨0, hasFDerivAt_const _ _, fun h => ?_⟩
    have e : im (0 : V3 ℝ) = 0 := im_zero
    simp [e]
  · simp only [if_neg h0]
    obtain ⟨D, hD, L, hL, eL⟩ := hext.deriv (l.angles ((List.ofFn x).drop k))
    have hv := hasFDerivAt_vec3 l.rotEntries k x
    refine ⟨L.comp (rowsL N l.rotEntries k), ?_, fun h => ?_⟩
    · exact HasFDerivAt.comp x hL hv
    · have e : D (rowsL N l.rotEntries k h) = omega N ext l k (List.ofFn x) h := by
        funext i
        rw [hD]
        show _ = mvecL _ _ i
        rw [mvecL_apply, ← mulVec_eq]
        rfl
      rw [← e]
      exact eL _

theorem linkPose_translation_deriv (ext : Ext ℝ) (l : Link ℝ) (k : Nat) (x : Fin N → ℝ) :
    HasFDerivAt (fun y : Fin N → ℝ => (linkPose ext l ((List.ofFn y).drop k)).translation) (tau N l k) x := by
  have h := hasFDerivAt_vec3 l.transEntries (k + l.activeRotationCount) x
  simp only [linkPose, Link.trans, List.drop_drop]
  exact h

/-! ## Linear combinations of columns -/

/-- `Σ hs[j] cols[j]`. -/
noncomputable def lin (cols : List (V3 ℝ)) (hs : List ℝ) : V3 ℝ := (List.zipWith (fun c a => a • c) cols hs).sum

theorem lin_nil (hs : List ℝ) : lin [] hs = 0 := rfl

theorem lin_cons (c : V3 ℝ) (cs : List (V3 ℝ)) (hs : List ℝ) (k : Nat) :
    lin (c :: cs) (hs.drop k) = (hs[k]?).getD 0 • c + lin cs (hs.drop (k + 1)) := by
  unfold lin
  by_cases h : k < hs.length
  · rw [List.drop_eq_getElem_cons h, List.getElem?_eq_getElem h, List.zipWith_cons_cons, List.sum_cons]
    rfl
  · rw [List.drop_eq_nil_of_le (by omega), List.drop_eq_nil_of_le (by omega), List.getElem?_eq_none (by omega)]
    simp

theorem lin_append (a b : List (V3 ℝ)) (hs : List ℝ) (k : Nat) :
    lin (a ++ b) (hs.drop k) = lin a (hs.drop k) + lin b (hs.drop (k + a.length)) := by
  induction a generalizing k with
  | nil => simp [lin_nil]
  | cons c cs ih =>
    rw [List.cons_append, lin_cons, lin_cons, ih, List.length_cons, ← add_assoc, Nat.add_assoc k 1, Nat.add_comm 1]

theorem lin_map (M : M3 ℝ) (a : List (V3 ℝ)) (hs : List ℝ) (k : Nat) :
    lin (a.map (mvec M)) (hs.drop k) = mvec M (lin a (hs.drop k)) := by
  induction a generalizing k with
  | nil => rw [List.map_nil, lin_nil, ← mvecL_apply, map_zero]
  | cons c cs ih =>
    rw [List.map_cons, lin_cons, lin_cons, ih, ← mvecL_apply, ← mvecL_apply, ← mvecL_apply, map_add, map_smul]

theorem lin_zero (n : Nat) (hs : List ℝ) (k : Nat) : lin (List.replicate n (fun _ => 0)) (hs.drop k) = 0 := by
  induction n generalizing k with
  | zero => rfl
  | succ n ih =>
    rw [List.replicate_succ, lin_cons, ih]
    have : (fun _ => (0 : ℝ) : V3 ℝ) = 0 := rfl
    rw [this, smul_zero, zero_add]

theorem mvec_cols (M : M3 ℝ) (v : V3 ℝ) : mvec M v = v 0 • col M 0 + v 1 • col M 1 + v 2 • col M 2 := by
  rw [← mulVec_eq]
  funext i
  simp [Matrix.mulVec, dotProduct, Fin.sum_univ_three, col]
  ring

theorem lin_linkJ (ext : Ext ℝ) (l : Link ℝ) (ps : List ℝ) (h : Fin N → ℝ) (k : Nat) :
    lin (linkJ ext l ps) ((List.ofFn h).drop k) = mvec (ext.so3 (l.angles ps)).2 (rowsL N l.rotEntries k h) := by
  rw [mvec_cols]
  unfold linkJ Link.rotAxes rowsL Link.rotEntries
  have e : List.finRange 3 = [0, 1, 2] := by decide
  rw [e]
  have e0 : (Fin.castLE (by omega : 3 ≤ 6) (0 : Fin 3)) = (0 : Fin 6) := rfl
  have e1 : (Fin.castLE (by omega : 3 ≤ 6) (1 : Fin 3)) = (1 : Fin 6) := rfl
  have e2 : (Fin.castLE (by omega : 3 ≤ 6) (2 : Fin 3)) = (2 : Fin 6) := rfl
  cases h0 : l.active 0 <;> cases h1 : l.active 1 <;> cases h2 : l.active 2 <;>
    simp [List.filter, h0, h1, h2, e0, e1, e2, rows, lin_cons, lin_nil, ← projL_apply, add_assoc]

theorem lin_transCols (l : Link ℝ) (B : M3 ℝ) (h : Fin N → ℝ) (k : Nat) :
    lin (activeTranslationCols l B) ((List.ofFn h).drop k) = mvec B (rowsL N l.transEntries k h) := by
  rw [mvec_cols]
  unfold activeTranslationCols rowsL Link.transEntries
  have e : List.finRange 3 = [0, 1, 2] := by decide
  rw [e]
  cases h0 : l.active 3 <;> cases h1 : l.active 4 <;> cases h2 : l.active 5 <;>
    simp [List.filter, h0, h1, h2, rows, lin_cons, lin_nil, ← projL_apply, add_assoc]

/-- Entry `i` of a list of blocks. -/
def blockAt (Ms : List (M3 ℝ)) (i : Nat) : M3 ℝ := (Ms[i]?).getD fun _ _ => 0

theorem lin_trans_all (ext : Ext ℝ) (ls : List (Link ℝ)) (ps : List ℝ) (h : Fin N → ℝ) (k : Nat) (Ms Bs : List (M3 ℝ))
    (hM : Ms.length = ls.length) (hB : Bs.length = ls.length) :
    lin (transCols ext ls (ps.drop k) Ms Bs) ((List.ofFn h).drop k)
      = ∑ i : Fin ls.length, (mvec (blockAt Ms i) (omega N ext ls[i] (k + off ls i) ps h)
          + mvec (blockAt Bs i) (tau N ls[i] (k + off ls i) h)) := by
  induction ls generalizing k Ms Bs with
  | nil => simp [transCols, lin_nil]
  | cons l ls ih =>
    cases Ms with
    | nil => simp at hM
    | cons M Ms =>
      cases Bs with
      | nil => simp at hB
      | cons B Bs =>
        have hsum : ∀ f : Fin (l :: ls).length → V3 ℝ, ∑ i, f i = f ⟨0, by simp⟩ + ∑ i : Fin ls.length, f i.succ :=
          fun f => Fin.sum_univ_succ f
        rw [hsum]
        simp only [transCols]
        rw [lin_append, lin_append, lin_map, lin_linkJ, List.length_map, linkJ_length, lin_transCols, List.length_append,
          List.length_map, linkJ_length, transCols_length, ← activeCount_eq, List.drop_drop,
          ih _ _ _ (by simpa using hM) (by simpa using hB)]
        congr 1
        refine Finset.sum_congr rfl fun i _ => ?_
        have e : k + off (l :: ls) (i.succ : Fin (ls.length + 1)).val = k + l.activeCount + off ls i := by
          rw [Fin.val_succ, off_cons_succ]; omega
        show _ = mvec (blockAt (M :: Ms) (i.succ : Fin (ls.length + 1)).val) (omega N ext ls[i] _ ps h)
          + mvec (blockAt (B :: Bs) (i.succ : Fin (ls.length + 1)).val) (tau N ls[i] _ h)
        rw [e]
        rfl

theorem lin_rot_all (ext : Ext ℝ) (ls : List (Link ℝ)) (ps : List ℝ) (h : Fin N → ℝ) (k : Nat) (Ms : List (M3 ℝ))
    (old : List (V3 ℝ)) (hM : Ms.length = ls.length) (ho : TransZero ls old) (hl : old.length = total ls) :
    lin (rotCols ext ls (ps.drop k) Ms old) ((List.ofFn h).drop k)
      = ∑ i : Fin ls.length, mvec (blockAt Ms i) (omega N ext ls[i] (k + off ls i) ps h) := by
  induction ls generalizing k Ms old with
  | nil =>
    have : old = [] := List.eq_nil_of_length_eq_zero hl
    subst this
    simp [rotCols, lin_nil]
  | cons l ls ih =>
    cases Ms with
    | nil => simp at hM
    | cons M Ms =>
      obtain ⟨o1, o2⟩ := ho
      simp only [total] at hl
      have hn := nrot_le l
      have hsum : ∀ f : Fin (l :: ls).length → V3 ℝ, ∑ i, f i = f ⟨0, by simp⟩ + ∑ i : Fin ls.length, f i.succ :=
        fun f => Fin.sum_univ_succ f
      rw [hsum]
      simp only [rotCols]
      rw [o1, lin_append, lin_append, lin_map, lin_linkJ, lin_zero, add_zero, List.length_append, List.length_map,
        linkJ_length, List.length_replicate, Nat.add_sub_cancel' hn, List.drop_drop,
        ih _ _ _ (by simpa using hM) o2 (by simp; omega)]
      congr 1
      refine Finset.sum_congr rfl fun i _ => ?_
      have e : k + off (l :: ls) (i.succ : Fin (ls.length + 1)).val = k + l.activeCount + off ls i := by
        rw [Fin.val_succ, off_cons_succ]; omega
      show _ = mvec (blockAt (M :: Ms) (i.succ : Fin (ls.length + 1)).val) (omega N ext ls[i] _ ps h)
      rw [e]
      rfl

theorem lin_sum (cols : List (V3 ℝ)) (f : Fin N → V3 ℝ) (h : Fin N → ℝ) (hc : ∀ j : Fin N, cols[j.val]? = some (f j))
    (hl : cols.length = N) : lin cols (List.ofFn h) = ∑ j, h j • f j := by
  have e : cols = List.ofFn f := by
    apply List.ext_getElem?
    intro i
    by_cases hi : i < N
    · rw [hc ⟨i, hi⟩, List.getElem?_eq_getElem (by simpa using hi)]
      simp
    · rw [List.getElem?_eq_none (by omega), List.getElem?_eq_none (by simpa using hi)]
  subst e
  unfold lin
  have e2 : List.zipWith (fun (c : V3 ℝ) (a : ℝ) => a • c) (List.ofFn f) (List.ofFn h) = List.ofFn fun j => h j • f j := by
    apply List.ext_getElem
    · simp
    · intro i h1 h2
      simp
  rw [e2, List.sum_ofFn]

/-- **C73** (derivatives of an actuator chain). Let a chain of actuators have `N > 0` active parameters, fixed rotations
that are unit quaternions, and let the Euler angle function of `geometry_utils` return a rotation with its right derivative.
Then a first `Update` succeeds at every vector of `N` parameters, and the effector's translation and rotation are
differentiable functions of the parameters, whose derivatives are the columns of `translation_D_params` and
`rotation_D_params`, in the order of the parameters. -/
theorem C73_update_derivatives (ext : Ext ℝ) (hext : EulerContract ext) (links : List (Link ℝ))
    (hN : totalActive links = N) (hpos : 0 < N) (hu : ∀ l ∈ links, IsUnitQ l.pose.rotation) :
    ∃ (c : (Fin N → ℝ) → Chain ℝ) (r : (Fin N → ℝ) → Quat ℝ) (t : (Fin N → ℝ) → V3 ℝ),
      (∀ y, update ext (List.ofFn y) (.fresh links) = .ok (c y) ∧ (c y).rotation = .ok (r y) ∧
        (c y).translation = .ok (t y)) ∧
      ∀ x, (c x).rotD.length = N ∧ (c x).transD.length = N ∧
        ∀ rotD transD : Fin N → V3 ℝ, (∀ j : Fin N, (c x).rotD[j.val]? = some (rotD j)) →
          (∀ j : Fin N, (c x).transD[j.val]? = some (transD j)) →
          ∃ D Ω : (Fin N → ℝ) →L[ℝ] V3 ℝ, HasFDerivAt t D x ∧ HasRightDerivative r Ω x ∧
            (∀ h, D h = ∑ j, h j • transD j) ∧ ∀ h, Ω h = ∑ j, h j • rotD j := by
  rw [totalActive_eq] at hN
  have hne : links ≠ [] := by rintro rfl; simp [total] at hN; omega
  have hlen : 0 < links.length := List.length_pos_iff.2 hne
  have hupd : ∀ y : Fin N → ℝ, update ext (List.ofFn y) (.fresh links)
      = .ok (updated ext links (List.ofFn y) (zeroCols links)) := by
    intro y
    exact update_fresh ext links (List.ofFn y) [] (by simp [hN]) (by simp; omega)
  have hpo : ∀ y : Fin N → ℝ, posesOf ext links (List.ofFn y) = List.ofFn fun i : Fin links.length =>
      linkPose ext links[i] ((List.ofFn y).drop (off links i)) := fun y => posesOf_ofFn ext links _
  have hul : ∀ (i : Fin links.length) (y : Fin N → ℝ),
      IsUnitQ (linkPose ext links[i] ((List.ofFn y).drop (off links i))).rotation :=
    fun i y => linkPose_unit hext _ (hu _ (List.getElem_mem _)) _
  have heff : ∀ y : Fin N → ℝ, ∃ p, (computeChain (posesOf ext links (List.ofFn y))).startTEnd = .ok p := by
    intro y
    obtain ⟨p, hp, -⟩ := C71_start_T_end (posesOf ext links (List.ofFn y))
      (by intro h; have := congrArg List.length h; rw [posesOf_length] at this; simp at this; exact hne this)
      (by
        rw [hpo]
        intro l hl
        obtain ⟨i, rfl⟩ := (List.mem_ofFn' _ _).1 hl
        exact hul i y)
    exact ⟨p, hp⟩
  choose eff heff using heff
  refine ⟨fun y => updated ext links (List.ofFn y) (zeroCols links), fun y => (eff y).rotation, fun y => (eff y).translation,
    fun y => ⟨hupd y, ?_, ?_⟩, fun x => ?_⟩
  · have h := heff y
    unfold Buffer.startTEnd at h
    unfold Chain.rotation
    have hb : (updated ext links (List.ofFn y) (zeroCols links)).buf = computeChain (posesOf ext links (List.ofFn y)) := rfl
    simp only [hb]
    split at h
    · exact absurd h (by simp)
    · exact absurd h (by simp)
    · rename_i r rs t ts e1 e2
      rw [e1]
      injection h with h
      rw [← h]
  · have h := heff y
    unfold Buffer.startTEnd at h
    unfold Chain.translation
    have hb : (updated ext links (List.ofFn y) (zeroCols links)).buf = computeChain (posesOf ext links (List.ofFn y)) := rfl
    simp only [hb]
    split at h
    · exact absurd h (by simp)
    · exact absurd h (by simp)
    · rename_i r rs t ts e1 e2
      rw [e2]
      injection h with h
      rw [← h]
  · obtain ⟨l1, l2, l3⟩ := chain_lens (posesOf ext links (List.ofFn x))
    rw [posesOf_length] at l1 l2 l3
    have hrl : (rotCols ext links (List.ofFn x) (computeChain (posesOf ext links (List.ofFn x))).rotDRot
        (zeroCols links)).length = N := by
      rw [rotCols_length _ _ _ _ _ (by simp [zeroCols])]; simp [zeroCols, hN]
    have htl : (transCols ext links (List.ofFn x) (computeChain (posesOf ext links (List.ofFn x))).transDRot
      (computeChain (posesOf ext links (List.ofFn x))).transDTrans).length = N := by
      rw [transCols_len ext links _ _ _ l2 l3, hN]
    refine ⟨hrl, htl, fun rotD transD hrd htd => ?_⟩
    have heff' : ∀ y, (computeChain (List.ofFn fun i : Fin links.length =>
        linkPose ext links[i] ((List.ofFn y).drop (off links i)))).startTEnd = .ok (eff y) := by
      intro y
      rw [← hpo y]
      exact heff y
    have hc' : computeChain (posesOf ext links (List.ofFn x)) = computeChain (List.ofFn fun i : Fin links.length =>
        linkPose ext links[i] ((List.ofFn x).drop (off links i))) := by rw [hpo x]
    have hc := C72_chain_derivatives (E := Fin N → ℝ) hlen
      (fun i y => linkPose ext links[i] ((List.ofFn y).drop (off links i)))
      (fun i => omega N ext links[i] (off links i) (List.ofFn x)) (fun i => tau N links[i] (off links i)) x hul
      (fun i => linkPose_rotation_deriv hext links[i] (off links i) x)
      (fun i => linkPose_translation_deriv ext links[i] (off links i) x) eff
      heff' (computeChain (posesOf ext links (List.ofFn x))) hc'
    obtain ⟨-, -, -, hc⟩ := hc
    have hget : ∀ (Ms : List (M3 ℝ)), Ms.length = links.length → ∀ i : Fin links.length,
        Ms[i.val]? = some (blockAt Ms i) := by
      intro Ms h i
      rw [blockAt, List.getElem?_eq_getElem (by rw [h]; exact i.isLt)]
      rfl
    obtain ⟨D, Ω, hD, hΩ, eD, eΩ⟩ := hc (fun i => blockAt _ i) (fun i => blockAt _ i) (fun i => blockAt _ i)
      (hget _ l1) (hget _ l2) (hget _ l3)
    refine ⟨D, Ω, hD, hΩ, fun h => ?_, fun h => ?_⟩
    · rw [eD h, ← lin_sum _ transD h htd htl]
      have h5 := lin_trans_all ext links (List.ofFn x) h 0 _ _ l2 l3
      simp only [List.drop_zero, Nat.zero_add] at h5
      simp only [mulVec_eq]
      exact h5.symm
    · rw [eΩ h, ← lin_sum _ rotD h hrd hrl]
      have h5 := lin_rot_all ext links (List.ofFn x) h 0 _ (zeroCols links) l1 (transZero_zero links) (by simp [zeroCols])
      simp only [List.drop_zero, Nat.zero_add] at h5
      simp only [mulVec_eq]
      exact h5.symm

end MiniOpt.Props
