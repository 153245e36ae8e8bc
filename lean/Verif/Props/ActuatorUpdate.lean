import Verif.Lemmas.Actuator
import Mathlib.Tactic.FinCases

/-!
# C74, C75: actuator chains: layout of the parameters, caching, construction (any scalar)
-/

set_option autoImplicit false

namespace MiniOpt.Props

open MiniOpt.TC

variable {α : Type} [Scalar α]

/-! ## Layout -/

/-- The number of active entries before entry `e` of a link. -/
def entryRank (l : Link α) (e : Fin 6) : Nat := ((List.finRange 6).filter fun e' => decide (e' < e) && l.active e').length

/-- The parameter that drives entry `e` of link `i`: active entries are numbered link by link, and in each link in the order
of the mask. -/
def paramIndex (links : List (Link α)) (i : Nat) (l : Link α) (e : Fin 6) : Nat :=
  totalActive (links.take i) + entryRank l e

omit [Scalar α] in
theorem entryRank_facts (l : Link α) : entryRank l 0 = 0 ∧ entryRank l 1 = (l.active 0).toNat ∧
    entryRank l 2 = (l.active 0).toNat + (l.active 1).toNat ∧ entryRank l 3 = l.activeRotationCount ∧
    entryRank l 4 = l.activeRotationCount + (l.active 3).toNat ∧
    entryRank l 5 = l.activeRotationCount + (l.active 3).toNat + (l.active 4).toNat := by
  unfold entryRank Link.activeRotationCount
  have e : List.finRange 6 = [0, 1, 2, 3, 4, 5] := by decide
  rw [e]
  cases h0 : l.active 0 <;> cases h1 : l.active 1 <;> cases h2 : l.active 2 <;> cases h3 : l.active 3 <;>
    cases h4 : l.active 4 <;> simp [h0, h1, h2, h3, h4, List.filter, Fin.lt_def]

/-- Three entries after substitution. -/
theorem vec3_subst (b0 b1 b2 : Bool) (d0 d1 d2 : α) (ps : List α) (k : Nat) :
    vec3 (subst [(b0, d0), (b1, d1), (b2, d2)] (ps.drop k))
      = ![if b0 then (ps[k]?).getD 0 else d0, if b1 then (ps[k + b0.toNat]?).getD 0 else d1,
          if b2 then (ps[k + b0.toNat + b1.toNat]?).getD 0 else d2] := by
  cases b0 <;> cases b1 <;> cases b2 <;>
    simp [vec3, subst, at3, List.tail_drop]

theorem getD_of_lt (ps : List α) (k : Nat) (h : k < ps.length) : ps[k]? = some ((ps[k]?).getD 0) := by
  rw [List.getElem?_eq_getElem h]; rfl

theorem posesOf_get (ext : Ext α) (links : List (Link α)) (ps : List α) (i : Nat) (l : Link α) (hl : links[i]? = some l) :
    (posesOf ext links ps)[i]? = some (linkPose ext l (ps.drop (total (links.take i)))) := by
  induction links generalizing ps i with
  | nil => simp at hl
  | cons m ms ih =>
    cases i with
    | zero =>
      simp only [List.getElem?_cons_zero, Option.some.injEq] at hl
      subst hl
      simp [posesOf, total]
    | succ i =>
      simp only [List.getElem?_cons_succ] at hl
      rw [posesOf, List.getElem?_cons_succ, ih _ _ hl]
      simp [total, List.drop_drop]

omit [Scalar α] in
theorem total_take_le (links : List (Link α)) (i : Nat) (l : Link α) (hl : links[i]? = some l) :
    total (links.take i) + l.activeCount ≤ total links := by
  induction links generalizing i with
  | nil => simp at hl
  | cons m ms ih =>
    cases i with
    | zero =>
      simp only [List.getElem?_cons_zero, Option.some.injEq] at hl
      subst hl
      simp [total]
    | succ i =>
      simp only [List.getElem?_cons_succ] at hl
      have := ih i hl
      simp [total]
      omega

/-- **C74** (layout). After a first `Update` at a vector with one parameter for each active entry, every link `i` has the
pose whose translation is its original one with the active components replaced by their parameters, and whose rotation is
the original one if no angle is active, and otherwise that of its Euler angles with the active angles replaced by their
parameters. -/
theorem C74_layout (ext : Ext α) (links : List (Link α)) (ps : List α) (hne : 0 < totalActive links)
    (hps : ps.length = totalActive links) :
    ∃ c, update ext ps (.fresh links) = .ok c ∧ c.poses.length = links.length ∧
      ∀ i l, links[i]? = some l → ∃ (p : Pose α) (angles : V3 α), c.poses[i]? = some p ∧
        (p.rotation = if l.active 0 ∨ l.active 1 ∨ l.active 2 then (ext.so3 angles).1 else l.pose.rotation) ∧
        (∀ a : Fin 3, if l.active (a.castAdd 3) then ps[paramIndex links i l (a.castAdd 3)]? = some (angles a)
          else angles a = l.rotationXyz a) ∧
        ∀ a : Fin 3, if l.active (a.natAdd 3) then ps[paramIndex links i l (a.natAdd 3)]? = some (p.translation a)
          else p.translation a = l.pose.translation a := by
  rw [totalActive_eq] at hps hne
  have hu := update_fresh ext links ps [] hps (by simp; omega)
  refine ⟨_, hu, posesOf_length _ _ _, fun i l hl => ?_⟩
  have hle := total_take_le links i l hl
  obtain ⟨r0, r1, r2, r3, r4, r5⟩ := entryRank_facts l
  have hac := activeCount_eq l
  have hrot := countTrue_rot l
  simp only [Link.rotEntries, countTrue] at hrot
  simp only [Link.transEntries, countTrue] at hac
  refine ⟨_, l.angles (ps.drop (total (links.take i))), posesOf_get ext links ps i l hl, ?_, ?_, ?_⟩
  · have hiff : l.activeRotationCount = 0 ↔ ¬ (l.active 0 = true ∨ l.active 1 = true ∨ l.active 2 = true) := by
      unfold Link.activeRotationCount
      cases l.active 0 <;> cases l.active 1 <;> cases l.active 2 <;> simp
    simp only [linkPose]
    by_cases h0 : l.activeRotationCount = 0
    · rw [if_pos h0, if_neg (hiff.1 h0)]
    · rw [if_neg h0, if_pos (not_not.1 fun hh => h0 (hiff.2 hh))]
  · intro a
    unfold Link.angles Link.rotEntries paramIndex
    rw [vec3_subst, totalActive_eq]
    fin_cases a
    · show if l.active 0 then ps[total (links.take i) + entryRank l 0]? = some (if l.active 0 then _ else _)
        else (if l.active 0 then _ else _) = _
      rw [r0]
      cases h0 : l.active 0
      · simp
      · simp only [if_true]
        refine getD_of_lt _ _ ?_
        simp only [h0, Bool.toNat_true] at hrot
        omega
    · show if l.active 1 then ps[total (links.take i) + entryRank l 1]? = some (if l.active 1 then _ else _)
        else (if l.active 1 then _ else _) = _
      rw [r1]
      cases h0 : l.active 1
      · simp
      · simp only [if_true]
        refine getD_of_lt _ _ ?_
        simp only [h0, Bool.toNat_true] at hrot
        omega
    · show if l.active 2 then ps[total (links.take i) + entryRank l 2]? = some (if l.active 2 then _ else _)
        else (if l.active 2 then _ else _) = _
      rw [r2, ← Nat.add_assoc]
      cases h0 : l.active 2
      · simp
      · simp only [if_true]
        refine getD_of_lt _ _ ?_
        simp only [h0, Bool.toNat_true] at hrot
        omega
  · intro a
    unfold paramIndex linkPose Link.trans Link.transEntries
    simp only
    rw [List.drop_drop, vec3_subst, totalActive_eq]
    fin_cases a
    · show if l.active 3 then ps[total (links.take i) + entryRank l 3]? = some (if l.active 3 then _ else _)
        else (if l.active 3 then _ else _) = _
      rw [r3]
      cases h0 : l.active 3
      · simp
      · simp only [if_true]
        refine getD_of_lt _ _ ?_
        simp only [h0, Bool.toNat_true] at hac
        omega
    · show if l.active 4 then ps[total (links.take i) + entryRank l 4]? = some (if l.active 4 then _ else _)
        else (if l.active 4 then _ else _) = _
      rw [r4, ← Nat.add_assoc]
      cases h0 : l.active 4
      · simp
      · simp only [if_true]
        refine getD_of_lt _ _ ?_
        simp only [h0, Bool.toNat_true] at hac
        omega
    · show if l.active 5 then ps[total (links.take i) + entryRank l 5]? = some (if l.active 5 then _ else _)
        else (if l.active 5 then _ else _) = _
      rw [r5, ← Nat.add_assoc, ← Nat.add_assoc]
      cases h0 : l.active 5
      · simp
      · simp only [if_true]
        refine getD_of_lt _ _ ?_
        simp only [h0, Bool.toNat_true] at hac
        omega

/-! ## Caching -/

/-- The object after a call that may have thrown. -/
def afterCall (ext : Ext α) (c : Chain α) (params : List α) : Chain α :=
  match update ext params c with
  | .ok c' => c'
  | .error (_, c') => c'

/-- The object after a history of calls, each of which may have thrown. -/
def afterCalls (ext : Ext α) (history : List (List α)) (c : Chain α) : Chain α := history.foldl (afterCall ext) c

/-- What holds of the object between calls. -/
def CacheInv (ext : Ext α) (links : List (Link α)) (c : Chain α) : Prop :=
  (∃ r, r.length ≠ total links ∧ c = { Chain.fresh links with cached := r }) ∨
  ∃ q r, q.length = total links ∧ (r = q ∨ r.length ≠ total links) ∧
    c = { updated ext links q (zeroCols links) with cached := r }

theorem shouldUpdate_length {r ps : List α} (h : r.length ≠ ps.length) : shouldUpdate r ps = true := by
  unfold shouldUpdate; rw [if_pos h]

theorem update_skip (ext : Ext α) (ps : List α) (c : Chain α) (h : shouldUpdate c.cached ps = false) :
    update ext ps c = .ok c := by
  unfold update; rw [if_pos (by simpa using h)]

/-- A call with the wrong number of parameters, when the cache does not match. -/
theorem update_wrong (ext : Ext α) (links : List (Link α)) (ps : List α) (c : Chain α) (hc : CacheInv ext links c)
    (hN : 0 < total links) (hps : ps.length ≠ total links) (hs : shouldUpdate c.cached ps = true) :
    ∃ m, update ext ps c = .error (.assertion m, { c with cached := ps }) := by
  unfold update
  rw [if_neg (by simpa using hs)]
  rcases hc with ⟨r, hr, rfl⟩ | ⟨q, r, hq, hr, rfl⟩
  · refine ⟨"Wrong number of params passed", ?_⟩
    simp only [Chain.fresh, List.length_nil, true_and, totalActive_eq]
    rw [if_pos hps]
  · obtain ⟨l1, l2, l3⟩ := chain_lens (posesOf ext links q)
    rw [posesOf_length] at l1 l2 l3
    have htl : (updated ext links q (zeroCols links)).transD.length = total links := transCols_len ext links q _ _ l2 l3
    have hrl : (updated ext links q (zeroCols links)).rotD.length = total links := by
      show (rotCols ext links q _ _).length = _
      rw [rotCols_length _ _ _ _ _ (by simp [zeroCols])]; simp [zeroCols]
    have h0 : ¬ (updated ext links q (zeroCols links)).transD.length = 0 := by omega
    refine ⟨"Mismatch between # params", ?_⟩
    simp only [h0, false_and, if_false]
    rw [if_pos (by rw [hrl]; exact hps)]

theorem cacheInv_step (ext : Ext α) (links : List (Link α)) (ps : List α) (c : Chain α) (hc : CacheInv ext links c)
    (hN : 0 < total links) : CacheInv ext links (afterCall ext c ps) := by
  unfold afterCall
  by_cases hs : shouldUpdate c.cached ps = true
  · by_cases hps : ps.length = total links
    · have h : update ext ps c = .ok (updated ext links ps (zeroCols links)) := by
        rcases hc with ⟨r, hr, rfl⟩ | ⟨q, r, hq, hr, rfl⟩
        · exact update_fresh ext links ps r hps (by omega)
        · exact update_again ext links ps q r hN hps hs
      rw [h]
      exact Or.inr ⟨ps, ps, hps, Or.inl rfl, rfl⟩
    · obtain ⟨m, h⟩ := update_wrong ext links ps c hc hN hps hs
      rw [h]
      rcases hc with ⟨r, hr, rfl⟩ | ⟨q, r, hq, hr, rfl⟩
      · exact Or.inl ⟨ps, hps, rfl⟩
      · exact Or.inr ⟨q, ps, hq, Or.inr hps, rfl⟩
  · rw [update_skip ext ps c (by simpa using hs)]
    exact hc

theorem cacheInv_history (ext : Ext α) (links : List (Link α)) (history : List (List α)) (c : Chain α)
    (hc : CacheInv ext links c) (hN : 0 < total links) : CacheInv ext links (afterCalls ext history c) := by
  unfold afterCalls
  induction history generalizing c with
  | nil => exact hc
  | cons p ps ih => exact ih _ (cacheInv_step ext links p c hc hN)

/-- **C74** (caching). Let the links of a chain with active parameters stay the same. After any history of `Update` calls,
including calls that throw, an `Update` with the right number of parameters succeeds, and leaves the object exactly as a
first `Update` at some parameters `q` would have left a new object, where `q` are the given parameters or ones that pass
the test of being within `1e-9` of them in every component. In particular the error of re-using results does not grow with
the number of calls, and `rotation_D_params` is not affected by being computed in place. -/
theorem C74_cached (ext : Ext α) (links : List (Link α)) (hN : 0 < totalActive links) (history : List (List α))
    (params : List α) (hp : params.length = totalActive links) :
    ∃ c q, update ext params (afterCalls ext history (.fresh links)) = .ok c ∧
      update ext q (.fresh links) = .ok c ∧ q.length = params.length ∧
      (q = params ∨ ∀ (i : Nat) (a b : α), q[i]? = some a → params[i]? = some b → ¬ Scalar.lit (1 / 10 ^ 9) < Scalar.abs (a - b)) := by
  rw [totalActive_eq] at hN hp
  have hc := cacheInv_history ext links history (.fresh links) (Or.inl ⟨[], by simp; omega, rfl⟩) hN
  generalize afterCalls ext history (.fresh links) = c at hc
  by_cases hs : shouldUpdate c.cached params = true
  · have h : update ext params c = .ok (updated ext links params (zeroCols links)) := by
      rcases hc with ⟨r, hr, rfl⟩ | ⟨q, r, hq, hr, rfl⟩
      · exact update_fresh ext links params r hp (by omega)
      · exact update_again ext links params q r hN hp hs
    exact ⟨_, params, h, update_fresh ext links params [] hp (by simp; omega), rfl, Or.inl rfl⟩
  · have hs' : shouldUpdate c.cached params = false := by simpa using hs
    have hlen : c.cached.length = params.length := by
      by_contra hne
      exact hs (shouldUpdate_length hne)
    have hskip := update_skip ext params c hs'
    rcases hc with ⟨r, hr, rfl⟩ | ⟨q, r, hq, hr, rfl⟩
    · exact absurd (hlen.trans hp) hr
    · have hrq : r = q := by
        rcases hr with h | h
        · exact h
        · exact absurd (hlen.trans hp) h
      subst hrq
      refine ⟨_, r, hskip, update_fresh ext links r [] hq (by simp; omega), hlen, Or.inr ?_⟩
      intro i a b ha hb hlt
      apply hs
      unfold shouldUpdate
      rw [if_neg (not_not.2 hlen)]
      apply List.any_eq_true.2
      refine ⟨(a, b), ?_, by simpa using hlt⟩
      rw [List.mem_iff_getElem?]
      refine ⟨i, ?_⟩
      show (List.zip r params)[i]? = _
      rw [List.getElem?_zip_eq_some]
      exact ⟨ha, hb⟩

/-- **C74** (wrong number of parameters). With the wrong number of parameters a first `Update` throws an assertion -- but it
has already stored the parameters, so the same call again (if `|a - a|` is not above the tolerance, that is for all numbers)
returns without an error and without having computed anything. -/
theorem C74_wrong_size (ext : Ext α) (links : List (Link α)) (params : List α)
    (h0 : params ≠ []) (hp : params.length ≠ totalActive links)
    (hself : ∀ a ∈ params, ¬ Scalar.lit (1 / 10 ^ 9) < Scalar.abs (a - a)) :
    ∃ c, update ext params (.fresh links) = .error (.assertion "Wrong number of params passed", c) ∧
      update ext params c = .ok c ∧ c.poses = [] ∧ c.translation = .error (.ub "i_t_end.leftCols<1>()") ∧
      c.rotation = .error (.ub "i_R_end.front()") := by
  refine ⟨{ Chain.fresh links with cached := params }, ?_, ?_, rfl, rfl, rfl⟩
  · unfold update
    have hs : shouldUpdate ([] : List α) params = true := shouldUpdate_length (by
      intro h
      exact h0 (List.eq_nil_of_length_eq_zero h.symm))
    have hs' : ¬ ¬ shouldUpdate (Chain.fresh links : Chain α).cached params = true := not_not.2 hs
    have hp' : (Chain.fresh links : Chain α).transD.length = 0 ∧ params.length ≠ totalActive links := ⟨rfl, hp⟩
    exact (if_neg hs').trans (if_pos hp')
  · apply update_skip
    show shouldUpdate params params = false
    unfold shouldUpdate
    rw [if_neg (by simp)]
    rw [Bool.eq_false_iff]
    intro h
    obtain ⟨x, hx, hlt⟩ := List.any_eq_true.1 h
    obtain ⟨i, hi⟩ := List.mem_iff_getElem?.1 hx
    rw [List.getElem?_zip_eq_some] at hi
    have e : x.1 = x.2 := Option.some.inj (hi.1.symm.trans hi.2)
    have hm : x.1 ∈ params := List.mem_of_getElem? hi.1
    apply hself x.1 hm
    have := of_decide_eq_true hlt
    rw [← e] at this
    exact this

/-- **C74** (nothing to optimise). A chain without active parameters is never computed: `Update` with the empty vector, the
only one of the right size, returns at once, and the effector cannot be read. -/
theorem C74_no_active (ext : Ext α) (links : List (Link α)) :
    update ext [] (.fresh links) = .ok (.fresh links) ∧
    (Chain.fresh links : Chain α).translation = .error (.ub "i_t_end.leftCols<1>()") :=
  ⟨update_skip ext [] _ rfl, rfl⟩

/-! ## Construction -/

/-- The parameters of a link in its original state. -/
def ownParams (l : Link α) : List α :=
  (List.finRange 6).filterMap fun e =>
    if l.active e then some (if h : e.val < 3 then l.rotationXyz ⟨e, h⟩ else l.pose.translation ⟨e - 3, by omega⟩) else none

theorem subst_own (l : List (Bool × α)) (rest : List α) :
    subst l ((l.filter fun e => e.1).map Prod.snd ++ rest) = l.map Prod.snd := by
  induction l with
  | nil => rfl
  | cons e r ih =>
    obtain ⟨b, d⟩ := e
    cases b with
    | false => simpa [subst, List.filter] using ih
    | true => simpa [subst, List.filter] using ih

omit [Scalar α] in
theorem own_length (l : List (Bool × α)) : ((l.filter fun e => e.1).map Prod.snd).length = countTrue l := by
  induction l with
  | nil => rfl
  | cons e r ih =>
    obtain ⟨b, d⟩ := e
    cases b with
    | false => simpa [countTrue, List.filter] using ih
    | true => simp [countTrue, List.filter] at ih ⊢; omega

/-- **C75** (round trip). A link that can be constructed keeps its pose and mask, and reproduces its pose from its own
parameters: the translation exactly, and every entry of the rotation matrix within `1e-5` if an angle is active, the
rotation itself otherwise. -/
theorem C75_round_trip (ext : Ext α) (pose : Pose α) (mask : Fin 6 → Bool) (junk : V3 α) (l : Link α)
    (h : Link.make ext pose mask junk = .ok l) :
    l.pose = pose ∧ l.active = mask ∧
    ∃ p J, l.compute ext (ownParams l) 0 = .ok (p, J) ∧ p.translation = pose.translation ∧
      (if mask 0 ∨ mask 1 ∨ mask 2 then
        ∀ i j, Scalar.abs (p.rotation.matrix i j - pose.rotation.matrix i j) < Scalar.lit (1 / 10 ^ 5)
      else p.rotation = pose.rotation) := by
  have hl : l.pose = pose ∧ l.active = mask ∧ (0 < l.activeRotationCount →
      ∀ i j, Scalar.abs ((ext.so3 l.rotationXyz).1.matrix i j - pose.rotation.matrix i j) < Scalar.lit (1 / 10 ^ 5)) := by
    unfold Link.make at h
    simp only at h
    split at h
    · split at h
      · rename_i hc
        injection h with h
        subst h
        exact ⟨rfl, rfl, fun _ => hc⟩
      · exact absurd h (by simp)
    · rename_i h0
      injection h with h
      subst h
      exact ⟨rfl, rfl, fun hh => absurd hh h0⟩
  obtain ⟨hp, hm, hr⟩ := hl
  have hlen : (ownParams l).length = l.activeCount := by
    unfold ownParams Link.activeCount
    have e : List.finRange 6 = [0, 1, 2, 3, 4, 5] := by decide
    rw [e]
    cases h0 : l.active 0 <;> cases h1 : l.active 1 <;> cases h2 : l.active 2 <;> cases h3 : l.active 3 <;>
      cases h4 : l.active 4 <;> cases h5 : l.active 5 <;> simp [h0, h1, h2, h3, h4, h5]
  have hown : ownParams l = ((l.rotEntries ++ l.transEntries).filter fun e => e.1).map Prod.snd := by
    unfold ownParams Link.rotEntries Link.transEntries
    have e : List.finRange 6 = [0, 1, 2, 3, 4, 5] := by decide
    rw [e]
    cases h0 : l.active 0 <;> cases h1 : l.active 1 <;> cases h2 : l.active 2 <;> cases h3 : l.active 3 <;>
      cases h4 : l.active 4 <;> cases h5 : l.active 5 <;> simp [h0, h1, h2, h3, h4, h5, List.filter]
  have hangles : l.angles (ownParams l) = l.rotationXyz := by
    rw [hown, List.filter_append, List.map_append, Link.angles, subst_own]
    funext i
    fin_cases i <;> rfl
  have htrans : l.trans (ownParams l) = l.pose.translation := by
    rw [hown, List.filter_append, List.map_append, Link.trans, ← countTrue_rot, ← own_length, List.drop_left,
      ← List.append_nil (List.map Prod.snd (List.filter _ l.transEntries)), subst_own]
    funext i
    fin_cases i <;> rfl
  refine ⟨hp, hm, _, _, compute_eq ext l (ownParams l) 0 (by omega), ?_, ?_⟩
  · rw [List.drop_zero]
    exact htrans.trans (by rw [hp])
  · rw [List.drop_zero, ← hm]
    by_cases h0 : l.activeRotationCount = 0
    · have hn : ¬ (l.active 0 = true ∨ l.active 1 = true ∨ l.active 2 = true) := by
        unfold Link.activeRotationCount at h0
        cases h0' : l.active 0 <;> cases h1 : l.active 1 <;> cases h2 : l.active 2 <;> simp_all
      rw [if_neg hn]
      simp only [linkPose, if_pos h0]
      rw [hp]
    · have hn : l.active 0 = true ∨ l.active 1 = true ∨ l.active 2 = true := by
        unfold Link.activeRotationCount at h0
        cases h0' : l.active 0 <;> cases h1 : l.active 1 <;> cases h2 : l.active 2 <;> simp_all
      rw [if_pos hn]
      simp only [linkPose, if_neg h0, hangles]
      exact hr (by omega)

end MiniOpt.Props
