import Verif.Model.TransformChains
import Mathlib.Data.List.FinRange

/-!
# Closed forms of `ActuatorLink::Compute` and `ActuatorChain::Update`

Over any scalar.
-/

set_option autoImplicit false

namespace MiniOpt.TC

variable {α : Type} [Scalar α]

/-- Number of entries a mask replaces. -/
def countTrue : List (Bool × α) → Nat
  | [] => 0
  | (b, _) :: r => b.toNat + countTrue r

/-- `substitute` when there are enough parameters. -/
def subst : List (Bool × α) → List α → List α
  | [], _ => []
  | (true, _) :: r, ps => ps.headD 0 :: subst r ps.tail
  | (false, d) :: r, ps => d :: subst r ps

theorem substitute_eq (params : List α) (bad : Fault) (l : List (Bool × α)) (k : Nat) (h : k + countTrue l ≤ params.length) :
    substitute params bad k l = .ok (subst l (params.drop k)) := by
  induction l generalizing k with
  | nil => rfl
  | cons e r ih =>
    obtain ⟨b, d⟩ := e
    cases b with
    | false =>
      simp only [countTrue, Bool.toNat_false, zero_add] at h
      simp only [substitute, subst, ih k h]
    | true =>
      simp only [countTrue, Bool.toNat_true] at h
      have hk : k < params.length := by omega
      simp only [substitute, subst, List.getElem?_eq_getElem hk, ih (k + 1) (by omega)]
      rw [List.drop_eq_getElem_cons hk]
      rfl

/-- The three translation entries. -/
def Link.transEntries (l : Link α) : List (Bool × α) :=
  [(l.active 3, l.pose.translation 0), (l.active 4, l.pose.translation 1), (l.active 5, l.pose.translation 2)]

/-- The three angle entries. -/
def Link.rotEntries (l : Link α) : List (Bool × α) :=
  [(l.active 0, l.rotationXyz 0), (l.active 1, l.rotationXyz 1), (l.active 2, l.rotationXyz 2)]

omit [Scalar α] in
theorem countTrue_append (a b : List (Bool × α)) : countTrue (a ++ b) = countTrue a + countTrue b := by
  induction a with
  | nil => simp [countTrue]
  | cons e r ih => obtain ⟨b', d⟩ := e; simp [countTrue, ih]; omega

omit [Scalar α] in
theorem countTrue_rot (l : Link α) : countTrue l.rotEntries = l.activeRotationCount := by
  simp [Link.rotEntries, countTrue, Link.activeRotationCount]; omega

omit [Scalar α] in
theorem activeCount_eq (l : Link α) : l.activeCount = l.activeRotationCount + countTrue l.transEntries := by
  unfold Link.activeCount Link.activeRotationCount Link.transEntries
  have e : List.finRange 6 = [0, 1, 2, 3, 4, 5] := by decide
  rw [e]
  simp only [countTrue]
  cases h0 : l.active 0 <;> cases h1 : l.active 1 <;> cases h2 : l.active 2 <;> cases h3 : l.active 3 <;>
    cases h4 : l.active 4 <;> cases h5 : l.active 5 <;> simp [h0, h1, h2, h3, h4, h5]

omit [Scalar α] in
theorem subst_length [Scalar α] (l : List (Bool × α)) (ps : List α) : (subst l ps).length = l.length := by
  induction l generalizing ps with
  | nil => rfl
  | cons e r ih => obtain ⟨b, d⟩ := e; cases b <;> simp [subst, ih]

theorem subst_append (a b : List (Bool × α)) (ps : List α) :
    subst (a ++ b) ps = subst a ps ++ subst b (ps.drop (countTrue a)) := by
  induction a generalizing ps with
  | nil => simp [subst, countTrue]
  | cons e r ih =>
    obtain ⟨b', d⟩ := e
    cases b' with
    | false => simp [subst, countTrue, ih]
    | true => simp [subst, countTrue, ih, Nat.add_comm]

/-- Three entries of a list as a vector. -/
def vec3 (l : List α) : V3 α := ![at3 l 0, at3 l 1, at3 l 2]

/-- The Euler angles of a link with the parameters `ps` from its position on. -/
def Link.angles (l : Link α) (ps : List α) : V3 α := vec3 (subst l.rotEntries ps)

/-- The translation of a link with the parameters `ps` from its position on. -/
def Link.trans (l : Link α) (ps : List α) : V3 α := vec3 (subst l.transEntries (ps.drop l.activeRotationCount))

/-- The pose of a link. -/
def linkPose (ext : Ext α) (l : Link α) (ps : List α) : Pose α :=
  ⟨if l.activeRotationCount = 0 then l.pose.rotation else (ext.so3 (l.angles ps)).1, l.trans ps⟩

/-- The active axes among the first three. -/
def Link.rotAxes (l : Link α) : List (Fin 3) := (List.finRange 3).filter fun axis => l.active (axis.castLE (by omega))

/-- The derivative columns of a link. -/
def linkJ (ext : Ext α) (l : Link α) (ps : List α) : List (V3 α) :=
  l.rotAxes.map fun axis => col (ext.so3 (l.angles ps)).2 axis

omit [Scalar α] in
theorem rotAxes_length (l : Link α) : l.rotAxes.length = l.activeRotationCount := by
  unfold Link.rotAxes Link.activeRotationCount
  have e : List.finRange 3 = [0, 1, 2] := by decide
  rw [e]
  have e0 : (Fin.castLE (by omega : 3 ≤ 6) (0 : Fin 3)) = (0 : Fin 6) := rfl
  have e1 : (Fin.castLE (by omega : 3 ≤ 6) (1 : Fin 3)) = (1 : Fin 6) := rfl
  have e2 : (Fin.castLE (by omega : 3 ≤ 6) (2 : Fin 3)) = (2 : Fin 6) := rfl
  cases h0 : l.active 0 <;> cases h1 : l.active 1 <;> cases h2 : l.active 2 <;>
    simp [List.filter, h0, h1, h2, e0, e1, e2]

theorem linkJ_length (ext : Ext α) (l : Link α) (ps : List α) : (linkJ ext l ps).length = l.activeRotationCount := by
  rw [linkJ, List.length_map, rotAxes_length]

omit [Scalar α] in
theorem transCols_length (l : Link α) (B : M3 α) :
    (activeTranslationCols l B).length = countTrue l.transEntries := by
  unfold activeTranslationCols Link.transEntries
  have e : List.finRange 3 = [0, 1, 2] := by decide
  rw [e, List.length_map]
  simp only [countTrue]
  cases h0 : l.active 3 <;> cases h1 : l.active 4 <;> cases h2 : l.active 5 <;>
    simp [List.filter, h0, h1, h2]

theorem compute_eq (ext : Ext α) (l : Link α) (params : List α) (position : Nat)
    (h : position + l.activeCount ≤ params.length) :
    l.compute ext params position = .ok (linkPose ext l (params.drop position), linkJ ext l (params.drop position)) := by
  have hc := activeCount_eq l
  unfold Link.compute
  by_cases h0 : l.activeRotationCount = 0
  · rw [if_pos h0]
    rw [show [(l.active 3, l.pose.translation 0), (l.active 4, l.pose.translation 1), (l.active 5, l.pose.translation 2)]
      = l.transEntries from rfl, substitute_eq _ _ _ _ (by omega)]
    have hJ : linkJ ext l (params.drop position) = [] := by
      apply List.eq_nil_of_length_eq_zero
      rw [linkJ_length, h0]
    rw [hJ]
    simp only [linkPose, Link.trans, h0, List.drop_zero]
    rfl
  · rw [if_neg h0]
    rw [show [(l.active 0, l.rotationXyz 0), (l.active 1, l.rotationXyz 1), (l.active 2, l.rotationXyz 2),
      (l.active 3, l.pose.translation 0), (l.active 4, l.pose.translation 1), (l.active 5, l.pose.translation 2)]
      = l.rotEntries ++ l.transEntries from rfl, substitute_eq _ _ _ _ (by rw [countTrue_append, countTrue_rot]; omega),
      subst_append]
    have hlen : (subst l.rotEntries (params.drop position)).length = 3 := subst_length _ _
    have a0 : ∀ i, i < 3 → at3 (subst l.rotEntries (params.drop position) ++
        subst l.transEntries ((params.drop position).drop (countTrue l.rotEntries))) i
        = at3 (subst l.rotEntries (params.drop position)) i := by
      intro i hi
      unfold at3
      rw [List.getElem?_append_left (by omega)]
    have a3 : ∀ i, at3 (subst l.rotEntries (params.drop position) ++
        subst l.transEntries ((params.drop position).drop (countTrue l.rotEntries))) (3 + i)
        = at3 (subst l.transEntries ((params.drop position).drop l.activeRotationCount)) i := by
      intro i
      unfold at3
      rw [List.getElem?_append_right (by omega), hlen, Nat.add_sub_cancel_left, countTrue_rot]
    have a3' := a3 0
    have a4' := a3 1
    have a5' := a3 2
    simp only [Nat.add_zero, Nat.reduceAdd] at a3' a4' a5'
    simp only [a0 0 (by omega), a0 1 (by omega), a0 2 (by omega), a3', a4', a5', linkPose, if_neg h0]
    rfl

/-- Poses of all links from the parameters `ps`. -/
def posesOf (ext : Ext α) : List (Link α) → List α → List (Pose α)
  | [], _ => []
  | l :: ls, ps => linkPose ext l ps :: posesOf ext ls (ps.drop l.activeCount)

/-- The rotation columns after the first loop of `Update`; `old` are the columns before. -/
def overlay (ext : Ext α) : List (Link α) → List α → List (V3 α) → List (V3 α)
  | [], _, old => old
  | l :: ls, ps, old =>
    linkJ ext l ps ++ (old.take l.activeCount).drop l.activeRotationCount
      ++ overlay ext ls (ps.drop l.activeCount) (old.drop l.activeCount)

/-- Sum of the active counts. -/
def total : List (Link α) → Nat
  | [] => 0
  | l :: ls => l.activeCount + total ls

omit [Scalar α] in
theorem totalActive_eq (links : List (Link α)) : totalActive links = total links := by
  have h : ∀ (ls : List (Link α)) (k : Nat), ls.foldl (fun t l => t + l.activeCount) k = k + total ls := by
    intro ls
    induction ls with
    | nil => simp [total]
    | cons l ls ih => intro k; simp [total, ih]; omega
  unfold totalActive
  rw [h]; omega

omit [Scalar α] in
theorem nrot_le (l : Link α) : l.activeRotationCount ≤ l.activeCount := by
  rw [activeCount_eq]; omega

theorem posesOf_length (ext : Ext α) (ls : List (Link α)) (ps : List α) : (posesOf ext ls ps).length = ls.length := by
  induction ls generalizing ps with
  | nil => rfl
  | cons l ls ih => simp [posesOf, ih]

theorem overlay_length (ext : Ext α) (ls : List (Link α)) (ps : List α) (old : List (V3 α)) (h : total ls ≤ old.length) :
    (overlay ext ls ps old).length = old.length := by
  induction ls generalizing ps old with
  | nil => rfl
  | cons l ls ih =>
    simp only [total] at h
    have := nrot_le l
    simp only [overlay, List.length_append, linkJ_length, List.length_drop, List.length_take]
    rw [ih _ _ (by simp; omega)]
    simp
    omega

omit [Scalar α] in
theorem set_append_len {β : Type} (a : List β) (x y : β) (b : List β) : (a ++ x :: b).set a.length y = a ++ y :: b := by
  induction a with
  | nil => rfl
  | cons e r ih => simp [ih]

/-- The first loop of `Update`, with the object split at the current link. -/
theorem posesLoop_eq (ext : Ext α) (params : List α) (ls : List (Link α)) (position : Nat) (c : Chain α)
    (pre post : List (Pose α)) (preR old : List (V3 α))
    (hp : c.poses = pre ++ post) (hpost : post.length = ls.length) (hr : c.rotD = preR ++ old)
    (hpos : preR.length = position) (hold : total ls ≤ old.length) (hparams : position + total ls ≤ params.length) :
    posesLoop ext params ls pre.length position c
      = .ok { c with poses := pre ++ posesOf ext ls (params.drop position),
                     rotD := preR ++ overlay ext ls (params.drop position) old } := by
  induction ls generalizing position c pre post preR old with
  | nil =>
    have : post = [] := List.eq_nil_of_length_eq_zero hpost
    subst this
    simp only [posesLoop, posesOf, overlay]
    rw [← hp, ← hr]
  | cons l ls ih =>
    simp only [total] at hold hparams
    have hn := nrot_le l
    rw [posesLoop, compute_eq ext l params position (by omega)]
    obtain ⟨p0, post', rfl⟩ : ∃ p0 post', post = p0 :: post' := by
      cases post with
      | nil => simp at hpost
      | cons a b => exact ⟨a, b, rfl⟩
    simp only [List.length_cons, Nat.add_right_cancel_iff] at hpost
    have hw : writeCols c.rotD position (linkJ ext l (params.drop position))
        = some (preR ++ (linkJ ext l (params.drop position) ++ old.drop l.activeRotationCount)) := by
      unfold writeCols
      rw [linkJ_length, hr, if_pos (by simp; omega), ← hpos]
      simp
    simp only [hw]
    have hs : c.poses.set pre.length (linkPose ext l (params.drop position))
        = (pre ++ [linkPose ext l (params.drop position)]) ++ post' := by
      rw [hp, set_append_len]; simp
    have hlen : (pre ++ [linkPose ext l (params.drop position)]).length = pre.length + 1 := by simp
    have hsplit : preR ++ (linkJ ext l (params.drop position) ++ old.drop l.activeRotationCount)
        = (preR ++ linkJ ext l (params.drop position) ++ (old.take l.activeCount).drop l.activeRotationCount)
          ++ old.drop l.activeCount := by
      have e : old.drop l.activeRotationCount
          = (old.take l.activeCount).drop l.activeRotationCount ++ old.drop l.activeCount := by
        conv_lhs => rw [← List.take_append_drop l.activeCount old]
        rw [List.drop_append_of_le_length (by simp; omega)]
      rw [e]
      simp
    rw [← hlen]
    rw [ih (position + l.activeCount) _ (pre ++ [linkPose ext l (params.drop position)]) post' _ (old.drop l.activeCount)
      hs hpost hsplit (by simp [linkJ_length]; omega) (by simp; omega) (by omega)]
    simp [posesOf, overlay, List.drop_drop]

/-- The rotation columns after the second loop; `Ms` are the blocks of `rotation_D_rotation` for the links. -/
def finalRot : List (Link α) → List (M3 α) → List (V3 α) → List (V3 α)
  | l :: ls, M :: Ms, old =>
    (old.take l.activeRotationCount).map (mvec M) ++ (old.take l.activeCount).drop l.activeRotationCount
      ++ finalRot ls Ms (old.drop l.activeCount)
  | _, _, old => old

/-- The translation columns after the second loop. -/
def finalTrans : List (Link α) → List (M3 α) → List (M3 α) → List (V3 α) → List (V3 α)
  | l :: ls, M :: Ms, B :: Bs, old =>
    (old.take l.activeRotationCount).map (mvec M) ++ activeTranslationCols l B
      ++ finalTrans ls Ms Bs (old.drop l.activeCount)
  | _, _, _, _ => []

/-- The second loop of `Update`, with the object split at the current link. -/
theorem jacobianLoop_eq (ls : List (Link α)) (i position : Nat) (c : Chain α) (preR old preT oldT : List (V3 α))
    (hr : c.rotD = preR ++ old) (hpos : preR.length = position) (hold : old.length = total ls)
    (ht : c.transD = preT ++ oldT) (hposT : preT.length = position) (holdT : oldT.length = total ls)
    (h1 : (c.buf.transDRot.drop i).length = ls.length) (h2 : (c.buf.rotDRot.drop i).length = ls.length)
    (h3 : (c.buf.transDTrans.drop i).length = ls.length) :
    jacobianLoop ls i position c
      = .ok { c with rotD := preR ++ finalRot ls (c.buf.rotDRot.drop i) old,
                     transD := preT ++ finalTrans ls (c.buf.transDRot.drop i) (c.buf.transDTrans.drop i) old } := by
  induction ls generalizing i position c preR old preT oldT with
  | nil =>
    have e1 : old = [] := List.eq_nil_of_length_eq_zero hold
    have e2 : oldT = [] := List.eq_nil_of_length_eq_zero holdT
    subst e1 e2
    simp only [jacobianLoop, finalRot, finalTrans]
    rw [← hr, ← ht]
  | cons l ls ih =>
    simp only [total] at hold holdT
    have hn := nrot_le l
    have hac := activeCount_eq l
    simp only [List.length_drop, List.length_cons] at h1 h2 h3
    have k1 : i < c.buf.transDRot.length := by omega
    have k2 : i < c.buf.rotDRot.length := by omega
    have k3 : i < c.buf.transDTrans.length := by omega
    have d1 := List.drop_eq_getElem_cons k1
    have d2 := List.drop_eq_getElem_cons k2
    have d3 := List.drop_eq_getElem_cons k3
    rw [d1, d2, d3]
    simp only [finalRot, finalTrans]
    rw [jacobianLoop]
    by_cases h0 : l.activeCount = 0
    · have hn0 : l.activeRotationCount = 0 := by omega
      have hT : activeTranslationCols l (c.buf.transDTrans[i]) = [] := by
        apply List.eq_nil_of_length_eq_zero
        rw [transCols_length]; omega
      rw [if_pos h0]
      rw [ih (i + 1) position c preR old preT oldT hr hpos (by omega) ht hposT (by omega) (by simp; omega) (by simp; omega)
        (by simp; omega)]
      simp [hn0, h0, hT]
    · rw [if_neg h0, if_neg (by rw [hr]; simp; omega)]
      simp only [List.getElem?_eq_getElem k1, List.getElem?_eq_getElem k2, List.getElem?_eq_getElem k3]
      have ha : (c.rotD.drop position).take l.activeRotationCount = old.take l.activeRotationCount := by
        rw [hr, ← hpos]; simp
      rw [ha]
      have hal : (old.take l.activeRotationCount).length = l.activeRotationCount := by simp; omega
      have w1 : writeCols c.transD position ((old.take l.activeRotationCount).map (mvec c.buf.transDRot[i])
            ++ activeTranslationCols l c.buf.transDTrans[i])
          = some ((preT ++ ((old.take l.activeRotationCount).map (mvec c.buf.transDRot[i])
            ++ activeTranslationCols l c.buf.transDTrans[i])) ++ oldT.drop l.activeCount) := by
        unfold writeCols
        rw [ht, List.length_append, List.length_map, hal, transCols_length, ← hac, if_pos (by simp; omega), ← hposT]
        simp
      have w2 : writeCols c.rotD position ((old.take l.activeRotationCount).map (mvec c.buf.rotDRot[i]))
          = some ((preR ++ ((old.take l.activeRotationCount).map (mvec c.buf.rotDRot[i])
            ++ (old.take l.activeCount).drop l.activeRotationCount)) ++ old.drop l.activeCount) := by
        have e : old.drop l.activeRotationCount
            = (old.take l.activeCount).drop l.activeRotationCount ++ old.drop l.activeCount := by
          conv_lhs => rw [← List.take_append_drop l.activeCount old]
          rw [List.drop_append_of_le_length (by simp; omega)]
        unfold writeCols
        rw [hr, List.length_map, hal, if_pos (by simp; omega), ← hpos]
        simp [e]
      simp only [w1, w2]
      rw [ih (i + 1) (position + l.activeCount) _ _ (old.drop l.activeCount) _ (oldT.drop l.activeCount) rfl
        (by simp; omega) (by simp; omega) rfl
        (by simp [transCols_length]; omega) (by simp; omega) (by simp; omega) (by simp; omega) (by simp; omega)]
      simp

/-! ## The whole update -/

/-- The columns of `rotation_D_params` after an update. -/
def rotCols (ext : Ext α) : List (Link α) → List α → List (M3 α) → List (V3 α) → List (V3 α)
  | l :: ls, ps, M :: Ms, old =>
    (linkJ ext l ps).map (mvec M) ++ (old.take l.activeCount).drop l.activeRotationCount
      ++ rotCols ext ls (ps.drop l.activeCount) Ms (old.drop l.activeCount)
  | _, _, _, old => old

/-- The columns of `translation_D_params` after an update. -/
def transCols (ext : Ext α) : List (Link α) → List α → List (M3 α) → List (M3 α) → List (V3 α)
  | l :: ls, ps, M :: Ms, B :: Bs =>
    (linkJ ext l ps).map (mvec M) ++ activeTranslationCols l B ++ transCols ext ls (ps.drop l.activeCount) Ms Bs
  | _, _, _, _ => []

theorem split_block (l : Link α) (ext : Ext α) (ps : List α) (old rest : List (V3 α)) (h : l.activeCount ≤ old.length) :
    let w := linkJ ext l ps ++ (old.take l.activeCount).drop l.activeRotationCount ++ rest
    w.take l.activeRotationCount = linkJ ext l ps ∧
    (w.take l.activeCount).drop l.activeRotationCount = (old.take l.activeCount).drop l.activeRotationCount ∧
    w.drop l.activeCount = rest := by
  have hn := nrot_le l
  have hl := linkJ_length ext l ps
  have h2 : (linkJ ext l ps ++ (old.take l.activeCount).drop l.activeRotationCount).length = l.activeCount := by
    simp [hl]; omega
  refine ⟨?_, ?_, ?_⟩
  · rw [List.append_assoc, List.take_append_of_le_length (by omega), List.take_of_length_le (by omega)]
  · rw [List.take_append_of_le_length (by omega), List.take_of_length_le (by omega),
      List.drop_append_of_le_length (by omega), List.drop_eq_nil_of_le (by omega), List.nil_append]
  · rw [List.drop_append_of_le_length (by omega), List.drop_eq_nil_of_le (by omega), List.nil_append]

theorem finalRot_overlay (ext : Ext α) (ls : List (Link α)) (ps : List α) (Ms : List (M3 α)) (old : List (V3 α))
    (h : total ls ≤ old.length) (hM : Ms.length = ls.length) :
    finalRot ls Ms (overlay ext ls ps old) = rotCols ext ls ps Ms old := by
  induction ls generalizing ps Ms old with
  | nil =>
    cases Ms with
    | nil => rfl
    | cons M Ms => simp at hM
  | cons l ls ih =>
    cases Ms with
    | nil => simp at hM
    | cons M Ms =>
      simp only [total] at h
      simp only [overlay, finalRot, rotCols]
      obtain ⟨e1, e2, e3⟩ := split_block l ext ps old (overlay ext ls (ps.drop l.activeCount) (old.drop l.activeCount))
        (by omega)
      rw [e1, e2, e3, ih _ _ _ (by simp; omega) (by simpa using hM)]

theorem finalTrans_overlay (ext : Ext α) (ls : List (Link α)) (ps : List α) (Ms Bs : List (M3 α)) (old : List (V3 α))
    (h : total ls ≤ old.length) :
    finalTrans ls Ms Bs (overlay ext ls ps old) = transCols ext ls ps Ms Bs := by
  induction ls generalizing ps Ms Bs old with
  | nil => simp [finalTrans, transCols]
  | cons l ls ih =>
    cases Ms with
    | nil => simp [finalTrans, transCols]
    | cons M Ms =>
      cases Bs with
      | nil => simp [finalTrans, transCols]
      | cons B Bs =>
        simp only [total] at h
        simp only [overlay, finalTrans, transCols]
        obtain ⟨e1, e2, e3⟩ := split_block l ext ps old (overlay ext ls (ps.drop l.activeCount) (old.drop l.activeCount))
          (by omega)
        rw [e1, e3, ih _ _ _ _ (by simp; omega)]

theorem rotationsToEnd_len (ls : List (Pose α)) : (rotationsToEnd ls).length = ls.length + 1 := by
  induction ls with
  | nil => rfl
  | cons l ls ih =>
    rw [rotationsToEnd]
    cases h : rotationsToEnd ls with
    | nil => rw [h] at ih; simp at ih
    | cons r rs => rw [h] at ih; simp at ih ⊢; omega

theorem translationsToEnd_len (ls : List (Pose α)) : (translationsToEnd ls).length = ls.length + 1 := by
  induction ls with
  | nil => rfl
  | cons l ls ih =>
    rw [translationsToEnd]
    cases h : translationsToEnd ls with
    | nil => rw [h] at ih; simp at ih
    | cons r rs => rw [h] at ih; simp at ih ⊢; omega

theorem startRotations_len (s : Quat α) (ls : List (Pose α)) : (startRotations s ls).length = ls.length := by
  induction ls generalizing s with
  | nil => rfl
  | cons l ls ih => simp [startRotations, ih]

theorem chain_lens (ls : List (Pose α)) : (computeChain ls).rotDRot.length = ls.length ∧
    (computeChain ls).transDRot.length = ls.length ∧ (computeChain ls).transDTrans.length = ls.length := by
  cases ls with
  | nil => exact ⟨rfl, rfl, rfl⟩
  | cons l ls =>
    refine ⟨?_, ?_, startRotations_len _ _⟩
    · show (((rotationsToEnd (l :: ls)).tail.take ((l :: ls).length - 1)).map (fun r : Quat α => r.conj.matrix)
        ++ [ident]).length = _
      simp [rotationsToEnd_len]
    · show (List.zipWith (fun (R : M3 α) (t : V3 α) => mmul R (skew3 fun i => - t i)) (startRotations .one (l :: ls)).tail
        (translationsToEnd (l :: ls)).tail ++ [fun _ _ => 0]).length = _
      simp [startRotations_len, translationsToEnd_len]

/-- The object after an update at `ps`, with `old` the rotation columns before. -/
def updated (ext : Ext α) (links : List (Link α)) (ps : List α) (old : List (V3 α)) : Chain α :=
  let poses := posesOf ext links ps
  let buf := computeChain poses
  { links := links
    poses := poses
    rotD := rotCols ext links ps buf.rotDRot old
    transD := transCols ext links ps buf.transDRot buf.transDTrans
    buf := buf
    cached := ps }

/-- The columns of zeros of a first update. -/
def zeroCols (links : List (Link α)) : List (V3 α) := List.replicate (total links) fun _ => 0

theorem resizePoses_length (n : Nat) (ps : List (Pose α)) : (resizePoses n ps).length = n := by
  simp [resizePoses]; omega

/-- Both loops. -/
theorem loops_eq (ext : Ext α) (links : List (Link α)) (ps : List α) (c : Chain α) (hc : c.links = links)
    (hps : ps.length = total links) (hr : c.rotD.length = total links) (ht : c.transD.length = total links)
    (hp : c.poses.length = links.length) :
    ∃ c1, posesLoop ext ps links 0 0 c = .ok c1 ∧
      jacobianLoop c1.links 0 0 { c1 with buf := computeChain c1.poses }
        = .ok { updated ext links ps c.rotD with cached := c.cached } := by
  have h1 := posesLoop_eq ext ps links 0 c [] c.poses [] c.rotD rfl hp rfl rfl (by omega) (by omega)
  simp only [List.length_nil, List.nil_append, List.drop_zero] at h1
  refine ⟨_, h1, ?_⟩
  obtain ⟨l1, l2, l3⟩ := chain_lens (posesOf ext links ps)
  rw [posesOf_length] at l1 l2 l3
  have h2 := jacobianLoop_eq links 0 0
    { c with poses := posesOf ext links ps, rotD := overlay ext links ps c.rotD, buf := computeChain (posesOf ext links ps) }
    [] (overlay ext links ps c.rotD) [] c.transD rfl rfl (by rw [overlay_length _ _ _ _ (by omega), hr]) rfl rfl ht
    (by simpa using l2) (by simpa using l1) (by simpa using l3)
  simp only [List.drop_zero, List.nil_append] at h2
  rw [finalRot_overlay _ _ _ _ _ (by omega) l1, finalTrans_overlay _ _ _ _ _ _ (by omega)] at h2
  subst hc
  exact h2

/-- The columns of a length that were not written: those of the translations. -/
def TransZero : List (Link α) → List (V3 α) → Prop
  | [], _ => True
  | l :: ls, old => (old.take l.activeCount).drop l.activeRotationCount
      = List.replicate (l.activeCount - l.activeRotationCount) (fun _ => 0) ∧ TransZero ls (old.drop l.activeCount)

theorem transZero_zero (links : List (Link α)) : TransZero links (zeroCols links) := by
  induction links with
  | nil => trivial
  | cons l ls ih =>
    refine ⟨?_, ?_⟩
    · simp [zeroCols, total]
    · simpa [zeroCols, total] using ih

theorem rotCols_congr (ext : Ext α) (ls : List (Link α)) (ps : List α) (Ms : List (M3 α)) (a b : List (V3 α))
    (ha : TransZero ls a) (hb : TransZero ls b) (hM : Ms.length = ls.length) (hla : a.length = total ls)
    (hlb : b.length = total ls) : rotCols ext ls ps Ms a = rotCols ext ls ps Ms b := by
  induction ls generalizing ps Ms a b with
  | nil =>
    have e1 : a = [] := List.eq_nil_of_length_eq_zero hla
    have e2 : b = [] := List.eq_nil_of_length_eq_zero hlb
    rw [e1, e2]
  | cons l ls ih =>
    cases Ms with
    | nil => simp at hM
    | cons M Ms =>
      simp only [total] at hla hlb
      obtain ⟨a1, a2⟩ := ha
      obtain ⟨b1, b2⟩ := hb
      simp only [rotCols]
      rw [a1, b1, ih _ _ _ _ a2 b2 (by simpa using hM) (by simp; omega) (by simp; omega)]

theorem rotCols_length (ext : Ext α) (ls : List (Link α)) (ps : List α) (Ms : List (M3 α)) (old : List (V3 α))
    (hl : total ls ≤ old.length) : (rotCols ext ls ps Ms old).length = old.length := by
  induction ls generalizing ps Ms old with
  | nil => simp [rotCols]
  | cons l ls ih =>
    cases Ms with
    | nil => simp [rotCols]
    | cons M Ms =>
      simp only [total] at hl
      have := nrot_le l
      simp only [rotCols, List.length_append, List.length_map, linkJ_length]
      rw [ih _ _ _ (by simp; omega)]
      simp
      omega

theorem transCols_len (ext : Ext α) (ls : List (Link α)) (ps : List α) (Ms Bs : List (M3 α)) (h1 : Ms.length = ls.length)
    (h2 : Bs.length = ls.length) : (transCols ext ls ps Ms Bs).length = total ls := by
  induction ls generalizing ps Ms Bs with
  | nil => simp [transCols, total]
  | cons l ls ih =>
    cases Ms with
    | nil => simp at h1
    | cons M Ms =>
      cases Bs with
      | nil => simp at h2
      | cons B Bs =>
        simp only [transCols, List.length_append, List.length_map, linkJ_length, transCols_length, total]
        rw [ih _ _ _ (by simpa using h1) (by simpa using h2), activeCount_eq]

theorem transZero_rotCols (ext : Ext α) (ls : List (Link α)) (ps : List α) (Ms : List (M3 α)) (old : List (V3 α))
    (ho : TransZero ls old) (hl : total ls ≤ old.length) (hM : Ms.length = ls.length) :
    TransZero ls (rotCols ext ls ps Ms old) := by
  induction ls generalizing ps Ms old with
  | nil => trivial
  | cons l ls ih =>
    cases Ms with
    | nil => simp at hM
    | cons M Ms =>
      simp only [total] at hl
      obtain ⟨o1, o2⟩ := ho
      have hn := nrot_le l
      simp only [rotCols]
      rw [o1]
      have hlen : ((linkJ ext l ps).map (mvec M) ++ List.replicate (l.activeCount - l.activeRotationCount)
          (fun _ => (0 : α))).length = l.activeCount := by
        simp [linkJ_length]; omega
      refine ⟨?_, ?_⟩
      · rw [List.take_append_of_le_length (by omega), List.take_of_length_le (by omega),
          List.drop_append_of_le_length (by simp [linkJ_length]), List.drop_eq_nil_of_le (by simp [linkJ_length]),
          List.nil_append]
      · rw [List.drop_append_of_le_length (by omega), List.drop_eq_nil_of_le (by omega), List.nil_append]
        exact ih _ _ _ o2 (by simp; omega) (by simpa using hM)

theorem updated_zero (ext : Ext α) (links : List (Link α)) (ps : List α) (old : List (V3 α)) (h : TransZero links old)
    (hl : old.length = total links) : updated ext links ps old = updated ext links ps (zeroCols links) := by
  obtain ⟨l1, -, -⟩ := chain_lens (posesOf ext links ps)
  rw [posesOf_length] at l1
  simp only [updated]
  rw [rotCols_congr ext links ps _ old (zeroCols links) h (transZero_zero links) l1 hl (by simp [zeroCols])]

/-- A first update. -/
theorem update_fresh (ext : Ext α) (links : List (Link α)) (ps r : List α)
    (hps : ps.length = total links) (hr : r.length ≠ ps.length) :
    update ext ps { Chain.fresh links with cached := r } = .ok (updated ext links ps (zeroCols links)) := by
  unfold update
  have hs : shouldUpdate r ps = true := by unfold shouldUpdate; rw [if_pos hr]
  rw [if_neg (by simpa using hs)]
  simp only [Chain.fresh, List.length_nil, true_and, if_true, totalActive_eq]
  rw [if_neg (by simpa using hps), if_neg (by simpa using hps)]
  obtain ⟨c1, h1, h2⟩ := loops_eq ext links ps
    { links := links, poses := resizePoses links.length [], rotD := List.replicate (total links) fun _ => 0,
      transD := List.replicate (total links) fun _ => 0, buf := .empty, cached := ps }
    rfl hps (by simp) (by simp) (resizePoses_length _ _)
  rw [h1]
  exact h2

/-- A later update. -/
theorem update_again (ext : Ext α) (links : List (Link α)) (ps q r : List α) (hN : 0 < total links)
    (hps : ps.length = total links) (hs : shouldUpdate r ps = true) :
    update ext ps { updated ext links q (zeroCols links) with cached := r }
      = .ok (updated ext links ps (zeroCols links)) := by
  obtain ⟨l1, l2, l3⟩ := chain_lens (posesOf ext links q)
  rw [posesOf_length] at l1 l2 l3
  have hrl : (rotCols ext links q (computeChain (posesOf ext links q)).rotDRot (zeroCols links)).length = total links := by
    rw [rotCols_length _ _ _ _ _ (by simp [zeroCols])]; simp [zeroCols]
  have htl : (transCols ext links q (computeChain (posesOf ext links q)).transDRot
      (computeChain (posesOf ext links q)).transDTrans).length = total links := transCols_len ext links q _ _ l2 l3
  have hz : TransZero links (rotCols ext links q (computeChain (posesOf ext links q)).rotDRot (zeroCols links)) :=
    transZero_rotCols ext links q _ _ (transZero_zero links) (by simp [zeroCols]) l1
  unfold update
  rw [if_neg (by simpa using hs)]
  have h0 : ¬ (updated ext links q (zeroCols links)).transD.length = 0 := by
    show ¬ (transCols ext links q _ _).length = 0
    rw [htl]; omega
  simp only [h0, false_and, if_false]
  rw [if_neg (by show ¬ ps.length ≠ (rotCols ext links q _ _).length; rw [hrl]; simpa using hps)]
  obtain ⟨c1, h1, h2⟩ := loops_eq ext links ps
    { updated ext links q (zeroCols links) with
      poses := resizePoses links.length (updated ext links q (zeroCols links)).poses, cached := ps }
    rfl hps hrl htl (resizePoses_length _ _)
  rw [← updated_zero ext links ps _ hz hrl]
  change (match posesLoop ext ps links 0 0 { updated ext links q (zeroCols links) with
      poses := resizePoses links.length (updated ext links q (zeroCols links)).poses, cached := ps } with
    | .error e => Except.error e
    | .ok c => jacobianLoop c.links 0 0 { c with buf := computeChain c.poses }) = _
  rw [h1]
  exact h2

end MiniOpt.TC
