import Verif.Spec.Rays
import Verif.Props.Opaque
import Verif.Props.Laws

/-! # C111: a ray is determined by its direction of departure -/

namespace DiffeRT2d.Props
open Spec Opaque

section
variable {walls : List (Pt × Pt)} {patch : ℝ} {t t' r r' : Pt} {c c' : List ℤ} {pts pts' : List Pt}

theorem line_side {w : Pt × Pt} {q : Pt} (h : OnLine w.1 w.2 q) : side w.1 w.2 q = 0 := by
  obtain ⟨s, rfl⟩ := h
  simp only [side, pointAt]; ring

theorem seg_side {w : Pt × Pt} {q : Pt} (h : OnSegment w.1 w.2 q) : side w.1 w.2 q = 0 := by
  obtain ⟨s, -, -, rfl⟩ := h
  simp only [side, pointAt]; ring

/-- A step does not meet a wall that is not one of its own, unless it starts on its line. -/
theorem ray_misses (h : RayPath walls patch t r c pts) (hp : -(1 / 202) ≤ patch) {i j : ℕ} {w : Pt × Pt} {a b : Pt} (ha : pts[i]? = some a)
    (hb : pts[i + 1]? = some b) (hj : walls[j]? = some w) (hadj : ¬ Adjacent c i j) (h0 : side w.1 w.2 a ≠ 0) {s : ℝ} (s0 : 0 ≤ s) (s1 : s ≤ 1)
    (hs : OnSegment w.1 w.2 (pointAt a b s)) : False := by
  have hpar := ray_parallel h hp ha hb hj hadj s0 s1 hs
  have e := seg_side hs
  rw [side_lin] at e
  apply h0
  have : side w.1 w.2 b - side w.1 w.2 a = 0 := by
    simp only [Parallel] at hpar
    simp only [side]; linear_combination hpar
  rw [this] at e; linarith

theorem same_far {o p q : Pt} {k : ℝ} (hk : 0 < k) (hx : q.x - o.x = k * (p.x - o.x)) (hy : q.y - o.y = k * (p.y - o.y)) :
    p = pointAt o q (1 / k) ∧ q = pointAt o p k := by
  constructor
  · ext
    · simp only [pointAt]; rw [hx]; field_simp; ring
    · simp only [pointAt]; rw [hy]; field_simp; ring
  · ext
    · simp only [pointAt]; linarith
    · simp only [pointAt]; linarith

/-- The wall with index `j` that a candidate names. -/
theorem cand_wall (hc : IsCandidate walls.length c) {i : ℕ} (hi : i < c.length) : ∃ (j : ℕ) (w : Pt × Pt), c[i]? = some (j : ℤ) ∧ walls[j]? = some w := by
  obtain ⟨h0, h1⟩ := hc.1 c[i] (List.getElem_mem _)
  obtain ⟨j, hj⟩ : ∃ j : ℕ, c[i] = (j : ℤ) := ⟨c[i].toNat, by omega⟩
  exact ⟨j, walls[j]'(by omega), by rw [List.getElem?_eq_getElem hi, hj], List.getElem?_eq_getElem (by omega)⟩

/-- The next wall is not one of those of the same step of another path that did the same so far. -/
theorem step_not_adjacent (hc : IsCandidate walls.length c) {i j : ℕ} (hij : c[i]? = some (j : ℤ)) (hne : c'[i]? ≠ some (j : ℤ)) (hsame : ∀ k < i, c[k]? = c'[k]?) :
    ¬ Adjacent c' i j := by
  rintro (h | ⟨k, rfl, h⟩)
  · exact hne h
  · rw [← hsame k (by omega)] at h
    exact hc.2 k _ _ h hij rfl

theorem rays_agree (hnd : ∀ w ∈ walls, w.1 ≠ w.2) (h : RayPath walls patch t r c pts) (h' : RayPath walls patch t' r' c' pts') (hc : IsCandidate walls.length c)
    (hc' : IsCandidate walls.length c') (hp : -(1 / 202) ≤ patch) (hL : LeaveTogether pts pts') :
    ∀ i, i ≤ c.length → i ≤ c'.length → (∀ k < i, c[k]? = c'[k]?) ∧ (∀ k ≤ i, pts[k]? = pts'[k]?) ∧
      ∀ a b b', pts[i]? = some a → pts[i + 1]? = some b → pts'[i + 1]? = some b' → SameDirection a b b' := by
  have hl := h.count
  have hl' := h'.count
  intro i
  induction i with
  | zero =>
    intro _ _
    obtain ⟨o, p, q, h1, h2, h3, h4, h5⟩ := hL
    refine ⟨by simp, fun k hk => ?_, fun a b b' ha hb hb' => ?_⟩
    · obtain rfl : k = 0 := by omega
      rw [h1, h3]
    · rw [h1] at ha; cases ha
      rw [zero_add, h2] at hb; cases hb
      rw [zero_add, h4] at hb'; cases hb'
      exact h5
  | succ i ih =>
    intro hi hi'
    obtain ⟨e1, e2, e3⟩ := ih (by omega) (by omega)
    obtain ⟨j, w, hj, hw⟩ := cand_wall hc (i := i) (by omega)
    obtain ⟨j', w', hj', hw'⟩ := cand_wall hc' (i := i) (by omega)
    have ha : pts[i]? = some pts[i] := List.getElem?_eq_getElem (by omega)
    have hb : pts[i + 1]? = some pts[i + 1] := List.getElem?_eq_getElem (by omega)
    have hd : pts[i + 2]? = some pts[i + 2] := List.getElem?_eq_getElem (by omega)
    have hb' : pts'[i + 1]? = some pts'[i + 1] := List.getElem?_eq_getElem (by omega)
    have hd' : pts'[i + 2]? = some pts'[i + 2] := List.getElem?_eq_getElem (by omega)
    have ha' : pts'[i]? = some pts[i] := by rw [← e2 i le_rfl, ha]
    generalize pts[i] = a at *
    generalize pts[i + 1] = b at *
    generalize pts[i + 2] = d at *
    generalize pts'[i + 1] = b' at *
    generalize pts'[i + 2] = d' at *
    obtain ⟨hba, k, hk, kx, ky⟩ := e3 a b b' ha hb hb'
    obtain ⟨f1, f2⟩ := same_far hk kx ky
    obtain ⟨hR, hS⟩ := h.reflected i j w a b d hj hw ha hb hd
    obtain ⟨hR', hS'⟩ := h'.reflected i j' w' a b' d' hj' hw' ha' hb' hd'
    have s0 : side w.1 w.2 a ≠ 0 := fun e => by have := hR.same; rw [e] at this; simp at this
    have s0' : side w'.1 w'.2 a ≠ 0 := fun e => by have := hR'.same; rw [e] at this; simp at this
    have hjj : j = j' := by
      by_contra hne
      have n1 : c'[i]? ≠ some (j : ℤ) := by rw [hj']; intro h; exact hne (by have := Option.some.inj h; omega)
      have n2 : c[i]? ≠ some (j' : ℤ) := by rw [hj]; intro h; exact hne (by have := Option.some.inj h; omega)
      rcases le_total 1 k with hk1 | hk1
      · refine ray_misses h' hp ha' hb' hw (step_not_adjacent hc hj n1 e1) s0 (s := 1 / k) (by positivity) ?_ (f1 ▸ hS)
        rw [div_le_one hk]; exact hk1
      · exact ray_misses h hp ha hb hw' (step_not_adjacent hc' hj' n2 fun k hk => (e1 k hk).symm) s0' hk.le hk1 (f2 ▸ hS')
    subst hjj
    rw [hw] at hw'; cases hw'
    have hbb : b' = b := by
      have z := seg_side hS'
      rw [f2, side_lin, seg_side hS] at z
      have : k = 1 := by
        rcases mul_eq_zero.mp (show side w.1 w.2 a * (1 - k) = 0 by linarith) with h | h
        · exact absurd h s0
        · linarith
      rw [f2, this]
      ext <;> simp [pointAt]
    subst hbb
    refine ⟨fun k hk => ?_, fun k hk => ?_, fun a1 b1 b1' ha1 hb1 hb1' => ?_⟩
    · rcases Nat.lt_succ_iff_lt_or_eq.mp hk with h | rfl
      · exact e1 k h
      · rw [hj, hj']
    · rcases Nat.le_succ_iff.mp hk with h | rfl
      · exact e2 k h
      · rw [hb, hb']
    · rw [hb] at ha1; cases ha1
      rw [hd] at hb1; cases hb1
      rw [hd'] at hb1'; cases hb1'
      have hwn := hnd w (List.mem_of_getElem? hw)
      obtain ⟨-, -, m, hm, em⟩ := reflects_aligned hwn hR
      obtain ⟨-, -, m', hm', em'⟩ := reflects_aligned hwn hR'
      refine ⟨fun e => ?_, m' / m, by positivity, ?_, ?_⟩
      · have := hR.same
        rw [e, line_side hR.on] at this; simp at this
      · have x := congrArg V2.x em
        have x' := congrArg V2.x em'
        simp only [V2.sub_x, V2.smul_x] at x x'
        rw [x, x']; field_simp
      · have x := congrArg V2.y em
        have x' := congrArg V2.y em'
        simp only [V2.sub_y, V2.smul_y] at x x'
        rw [x, x']; field_simp

/-- **C111.** Rays are deterministic. Two physical ray paths of a scene of walls (to whatever receivers) that leave the same point in the same direction are the same as far
as the shorter one goes: the longer one names the same walls first and goes through the same points, and, if it is longer, it goes through the end of the
shorter one, strictly between two of its own points. -/
theorem C111_ray (hnd : ∀ w ∈ walls, w.1 ≠ w.2) (h : RayPath walls patch t r c pts) (h' : RayPath walls patch t' r' c' pts') (hc : IsCandidate walls.length c)
    (hc' : IsCandidate walls.length c') (hp : -(1 / 202) ≤ patch) (hL : LeaveTogether pts pts') (hle : c.length ≤ c'.length) :
    c <+: c' ∧ pts.dropLast <+: pts' ∧
      ∀ a b, c.length < c'.length → pts'[c.length]? = some a → pts'[c.length + 1]? = some b → ∃ s, 0 < s ∧ s < 1 ∧ r = pointAt a b s := by
  have hl := h.count
  have hl' := h'.count
  obtain ⟨e1, e2, e3⟩ := rays_agree hnd h h' hc hc' hp hL c.length le_rfl hle
  refine ⟨?_, ?_, fun a b hlt ha hb => ?_⟩
  · rw [List.prefix_iff_eq_take]
    apply List.ext_getElem?
    intro k
    rw [List.getElem?_take]
    split_ifs with hk
    · exact e1 k hk
    · rw [List.getElem?_eq_none (by omega)]
  · rw [List.prefix_iff_eq_take]
    apply List.ext_getElem?
    intro k
    rw [List.getElem?_take, List.length_dropLast, List.getElem?_dropLast]
    split_ifs with hk
    · exact e2 k (by omega)
    · rfl
  · have hr : pts[c.length + 1]? = some r := by
      have := h.finish
      rw [List.getLast?_eq_getElem?] at this
      rw [← this]; congr 1; omega
    have ha' : pts[c.length]? = some a := by rw [e2 _ le_rfl, ha]
    obtain ⟨hra, k, hk, kx, ky⟩ := e3 a r b ha' hr hb
    obtain ⟨f1, f2⟩ := same_far hk kx ky
    refine ⟨1 / k, by positivity, ?_, f1⟩
    rw [div_lt_one hk]
    by_contra hk1
    push Not at hk1
    obtain ⟨j, w, hj, hw⟩ := cand_wall hc' hlt
    obtain ⟨hR, hS⟩ := h'.reflected _ j w a b _ hj hw ha hb (List.getElem?_eq_getElem (by omega))
    have s0 : side w.1 w.2 a ≠ 0 := fun e => by have := hR.same; rw [e] at this; simp at this
    exact ray_misses h hp ha' hr hw (step_not_adjacent hc' hj (by rw [List.getElem?_eq_none (by omega)]; simp) fun k hk => (e1 k hk).symm) s0 hk.le hk1 (f2 ▸ hS)

/-- The longer one of two rays that leave together is strictly longer. -/
theorem rays_length (hnd : ∀ w ∈ walls, w.1 ≠ w.2) (h : RayPath walls patch t r c pts) (h' : RayPath walls patch t' r' c' pts') (hc : IsCandidate walls.length c)
    (hc' : IsCandidate walls.length c') (hp : -(1 / 202) ≤ patch) (hL : LeaveTogether pts pts') (hlt : c.length < c'.length) : polyLength pts < polyLength pts' := by
  have hl := h.count
  have hl' := h'.count
  obtain ⟨-, ⟨rest, hrest⟩, hend⟩ := C111_ray hnd h h' hc hc' hp hL hlt.le
  obtain ⟨e1, e2, e3⟩ := rays_agree hnd h h' hc hc' hp hL c.length le_rfl hlt.le
  have hne : pts ≠ [] := by rintro rfl; simp at hl
  have hlast : pts.getLast hne = r := by
    have := h.finish
    rw [List.getLast?_eq_some_getLast hne] at this
    exact Option.some.inj this
  have hpts := List.dropLast_append_getLast hne
  rw [hlast] at hpts
  set D := pts.dropLast with hD
  have hDl : D.length = c.length + 1 := by rw [hD, List.length_dropLast]; omega
  have hDne : D ≠ [] := by rintro e; rw [e] at hDl; simp at hDl
  obtain ⟨b, rest, rfl⟩ : ∃ b rest', rest = b :: rest' := by
    cases rest with
    | nil => rw [List.append_nil] at hrest; rw [← hrest] at hl'; omega
    | cons b rest => exact ⟨b, rest, rfl⟩
  have hDD := List.dropLast_append_getLast hDne
  set a := D.getLast hDne with ha
  have ga : pts'[c.length]? = some a := by
    rw [← hrest, List.getElem?_append_left (by omega), ha, List.getLast_eq_getElem, ← List.getElem?_eq_getElem]
    congr 1; omega
  have gb : pts'[c.length + 1]? = some b := by
    rw [← hrest, List.getElem?_append_right (by omega), hDl]; simp
  obtain ⟨s, s0, s1, hs⟩ := hend a b hlt ga gb
  have ha' : pts[c.length]? = some a := by rw [e2 _ le_rfl, ga]
  have hr : pts[c.length + 1]? = some r := by
    have := h.finish
    rw [List.getLast?_eq_getElem?] at this
    rw [← this]; congr 1; omega
  obtain ⟨hra, -⟩ := e3 a r b ha' hr gb
  have l1 : polyLength pts = polyLength D + eucl a r := by
    rw [← hpts, ← hDD, List.append_assoc, List.singleton_append, polyLength_append]
    simp [polyLength]
  have l2 : polyLength pts' = polyLength D + (eucl a b + polyLength (b :: rest)) := by
    rw [← hrest, ← hDD, List.append_assoc, List.singleton_append, polyLength_append]
    simp [polyLength]
  have l3 : eucl a r = s * eucl a b := by
    rw [hs]
    simp only [eucl, pointAt]
    rw [show (a.x + s * (b.x - a.x) - a.x) ^ 2 + (a.y + s * (b.y - a.y) - a.y) ^ 2 = s ^ 2 * ((b.x - a.x) ^ 2 + (b.y - a.y) ^ 2) by ring,
      Real.sqrt_mul (by positivity), Real.sqrt_sq s0.le]
  have l4 : 0 < eucl a r := by
    rw [eucl]
    exact Real.sqrt_pos.mpr (Opaque.sq_pos hra.symm)
  have l5 := polyLength_nonneg (b :: rest)
  have l6 : 0 < eucl a b := by
    by_contra hcon
    have := mul_nonpos_of_nonneg_of_nonpos s0.le (not_lt.mp hcon)
    linarith
  rw [l1, l2]
  nlinarith

/-- **C111.** Two physical ray paths between the same two points that leave in the same direction and have the same number of reflections, or the same length, are
the same path. -/
theorem C111_same (hnd : ∀ w ∈ walls, w.1 ≠ w.2) (h : RayPath walls patch t r c pts) (h' : RayPath walls patch t r c' pts') (hc : IsCandidate walls.length c)
    (hc' : IsCandidate walls.length c') (hp : -(1 / 202) ≤ patch) (hL : LeaveTogether pts pts') (heq : c.length = c'.length ∨ polyLength pts = polyLength pts') :
    c = c' ∧ pts = pts' := by
  have hL' : LeaveTogether pts' pts := by
    obtain ⟨o, p, q, h1, h2, h3, h4, h5, k, hk, kx, ky⟩ := hL
    refine ⟨o, q, p, h3, h4, h1, h2, ?_, 1 / k, by positivity, ?_, ?_⟩
    · rintro rfl
      apply h5
      ext
      · rcases mul_eq_zero.mp (show k * (p.x - q.x) = 0 by linarith) with h | h <;> linarith
      · rcases mul_eq_zero.mp (show k * (p.y - q.y) = 0 by linarith) with h | h <;> linarith
    · rw [kx]; field_simp
    · rw [ky]; field_simp
  have hlen : c.length = c'.length := by
    rcases heq with h1 | h1
    · exact h1
    · rcases lt_trichotomy c.length c'.length with h2 | h2 | h2
      · exact absurd h1 (rays_length hnd h h' hc hc' hp hL h2).ne
      · exact h2
      · exact absurd h1 (rays_length hnd h' h hc' hc hp hL' h2).ne'
  obtain ⟨⟨x, hx⟩, ⟨y, hy⟩, -⟩ := C111_ray hnd h h' hc hc' hp hL hlen.le
  have hx0 : x = [] := by
    have := congrArg List.length hx
    rw [List.length_append] at this
    exact List.length_eq_zero_iff.mp (by omega)
  rw [hx0, List.append_nil] at hx
  refine ⟨hx, ?_⟩
  have hl := h.count
  have hl' := h'.count
  have hne : pts ≠ [] := by rintro rfl; simp at hl
  have hpts := List.dropLast_append_getLast hne
  have hyl : y.length = 1 := by
    have := congrArg List.length hy
    rw [List.length_append, List.length_dropLast] at this
    omega
  obtain ⟨z, rfl⟩ := List.length_eq_one_iff.mp hyl
  have hz : z = r := by
    have := h'.finish
    rw [← hy, List.getLast?_append] at this
    simpa using this
  have hlast : pts.getLast hne = r := by
    have := h.finish
    rw [List.getLast?_eq_some_getLast hne] at this
    exact Option.some.inj this
  rw [← hy, hz, ← hlast, hpts]

end

/-- **C111.** In a scene of walls, in hard mode, two different paths that `all_valid_paths` yields between the same transmitter and the same receiver, with the same number
of reflections (or with the same length), do not leave the transmitter in the same direction, and do not arrive at the receiver from the same
direction. -/
theorem C111_apart {Key : Type} (G : GraphLib) (hG : GraphContract G) (tx rx : PyDict Pt)
    (ht : Distinct tx) (hr : Distinct rx) (walls : List (Pt × Pt)) (hnd : ∀ w ∈ walls, w.1 ≠ w.2)
    (lo hi : ℤ) (hlo : 0 ≤ lo) (split : Key → ℕ → List Key) (key : Option Key)
    (E : Env) (approx : Option Bool) (hh : Hard E approx) (kw : ActKw) (tol patch : ℝ) (h0 : 0 < tol) (h1 : tol ≤ 1) (hp : -(1 / 202) ≤ patch) :
    ∃ out, (wallScene tx rx walls).allValidPaths G split (imageMethod Key) { minOrder := lo, maxOrder := hi }
        ⟨E, F.fin tol, F.fin patch, approx, kw⟩ key = .ok out ∧
      ∀ tn rn pts pts' c c', (tn, rn, finitePath pts 0, c) ∈ out → (tn, rn, finitePath pts' 0, c') ∈ out →
        (c.length = c'.length ∨ polyLength pts = polyLength pts') →
        LeaveTogether pts pts' ∨ LeaveTogether pts.reverse pts'.reverse → c = c' ∧ pts = pts' := by
  obtain ⟨out, e, -, s1, -⟩ := C74_valid_paths G hG tx rx ht hr walls hnd lo hi hlo split key E approx hh kw tol patch h0 h1 (by linarith)
  refine ⟨out, e, fun tn rn pts pts' c c' hm hm' heq hL => ?_⟩
  have inj : ∀ (d : PyDict Pt), Distinct d → ∀ (n : String) (a b : Pt), (n, a) ∈ d → (n, b) ∈ d → a = b := by
    intro d hd n a b ha hb
    have := List.inj_on_of_nodup_map hd ha hb rfl
    exact congrArg Prod.snd this
  obtain ⟨t, r, q, a1, a2, a3, -, -, a6, a7⟩ := s1 _ _ _ _ hm
  obtain ⟨t', r', q', b1, b2, b3, -, -, b6, b7⟩ := s1 _ _ _ _ hm'
  obtain ⟨rfl, -⟩ := finitePath_inj a6
  obtain ⟨rfl, -⟩ := finitePath_inj b6
  obtain rfl := inj tx ht _ _ _ a1 b1
  obtain rfl := inj rx hr _ _ _ a2 b2
  have mv : ∀ {l l' : List Pt}, LeaveTogether l l' → Moves l ∧ Moves l' := by
    rintro l l' ⟨o, p, q, h1, h2, h3, h4, h5, k, hk, kx, ky⟩
    refine ⟨⟨p, List.mem_of_getElem? h2, o, List.mem_of_getElem? h1, h5⟩, q, List.mem_of_getElem? h4, o, List.mem_of_getElem? h3, ?_⟩
    rintro rfl
    apply h5
    ext
    · rcases mul_eq_zero.mp (show k * (p.x - q.x) = 0 by linarith) with h | h <;> linarith
    · rcases mul_eq_zero.mp (show k * (p.y - q.y) = 0 by linarith) with h | h <;> linarith
  have hM : Moves pts ∧ Moves pts' := by
    rcases hL with hL | hL
    · exact mv hL
    · obtain ⟨m1, m2⟩ := mv hL
      exact ⟨by simpa using moves_reverse m1, by simpa using moves_reverse m2⟩
  have R := a7 fun _ _ => hM.1
  have R' := b7 fun _ _ => hM.2
  rcases hL with hL | hL
  · exact C111_same hnd R R' a3 b3 hp hL heq
  · obtain ⟨e1, e2⟩ := C111_same hnd (rayPath_reverse R) (rayPath_reverse R') (isCandidate_reverse a3) (isCandidate_reverse b3) hp hL
      (by simpa [polyLength_reverse] using heq)
    exact ⟨List.reverse_injective e1, List.reverse_injective e2⟩

/-- Non-vacuity, and the two cases of C111_ray are needed: towards the wall `y = 3`, the direct path from `(0, 1)` to `(0, 2)` and the path that comes back after a
reflection leave in the same direction, and both are physical. -/
theorem example_together : RayPath [(⟨-1, 3⟩, ⟨1, 3⟩)] 0 ⟨0, 1⟩ ⟨0, 2⟩ [] [⟨0, 1⟩, ⟨0, 2⟩] ∧ RayPath [(⟨-1, 3⟩, ⟨1, 3⟩)] 0 ⟨0, 1⟩ ⟨0, 2⟩ [0] [⟨0, 1⟩, ⟨0, 3⟩, ⟨0, 2⟩] ∧
    LeaveTogether [⟨0, 1⟩, ⟨0, 2⟩] [⟨0, 1⟩, ⟨0, 3⟩, ⟨0, 2⟩] := by
  refine ⟨⟨rfl, rfl, rfl, by simp, ?_⟩, ⟨rfl, rfl, rfl, ?_, ?_⟩, ⟨0, 1⟩, ⟨0, 2⟩, ⟨0, 3⟩, rfl, rfl, rfl, rfl, by simp, 2, by norm_num, by norm_num, by norm_num⟩
  · intro i j w p q ha hb hj _
    obtain rfl : i = 0 := by rcases i with _ | _ | i <;> simp_all
    obtain rfl : j = 0 := by rcases j with _ | j <;> simp_all
    simp at ha hb hj
    subst ha hb hj
    rintro ⟨-, s, u, e, -, -, hu⟩
    have := congrArg V2.y e
    simp only [pointAt] at this
    norm_num at hu this
    linarith
  · intro i j w p q q' hi hj ha hb hc
    obtain rfl : i = 0 := by rcases i with _ | i <;> simp_all
    obtain rfl : j = 0 := by rcases j with _ | j <;> simp_all
    simp at ha hb hj hc
    subst ha hb hj hc
    have on : OnSegment (⟨-1, 3⟩ : Pt) ⟨1, 3⟩ ⟨0, 3⟩ := ⟨1 / 2, by norm_num, by norm_num, by ext <;> norm_num [pointAt]⟩
    refine ⟨⟨on.imp fun s h => h.2.2, by norm_num [side], by norm_num [along]⟩, on⟩
  · intro i j w p q ha hb hj hadj
    obtain rfl : j = 0 := by rcases j with _ | j <;> simp_all
    exfalso; apply hadj
    rcases i with _ | _ | i
    · exact .inl rfl
    · exact .inr ⟨0, rfl, rfl⟩
    · simp at hb

end DiffeRT2d.Props
