import Verif.Lemmas.Opaque
import Verif.Props.Fields
import Verif.Props.Presets

/-! # C110: walls are opaque -/

namespace DiffeRT2d.Props
open Spec Opaque Relation

/-- From `t` one can reach the flank `σ` of the step from `a` to `b` without meeting a wall. -/
def Flank (walls : List (Pt × Pt)) (t a b : Pt) (σ τ : ℝ) : Prop :=
  ∃ δ > 0, ∀ s, 0 < s → s < δ → ReflTransGen (Free walls) t (beside a b τ (σ * s))

theorem flank_spread {walls : List (Pt × Pt)} {t a b : Pt} (hab : a ≠ b) {σ : ℝ} (hσ : σ = 1 ∨ σ = -1)
    (hpar : ∀ w ∈ walls, ∀ s, 0 < s → s < 1 → OnSegment w.1 w.2 (pointAt a b s) → Parallel w.1 w.2 a b)
    {τ τ' : ℝ} (h0 : 0 < τ) (h1 : τ < 1) (h0' : 0 < τ') (h1' : τ' < 1) (h : Flank walls t a b σ τ) : Flank walls t a b σ τ' := by
  obtain ⟨δ, hδ, h⟩ := h
  have hσ0 : σ ≠ 0 := by rcases hσ with rfl | rfl <;> norm_num
  have hσa : |σ| = 1 := by rcases hσ with rfl | rfl <;> simp
  rcases le_total τ τ' with hle | hle
  · obtain ⟨δ', hδ', h'⟩ := strip walls hab hle (fun w hw s hs0 hs1 => hpar w hw s (by linarith) (by linarith))
    refine ⟨min δ δ', lt_min hδ hδ', fun s hs0 hs1 => ?_⟩
    refine (h s hs0 (hs1.trans_le (min_le_left _ _))).tail (h' (σ * s) (mul_ne_zero hσ0 hs0.ne') ?_).1
    rw [abs_mul, hσa, one_mul, abs_of_pos hs0]; exact hs1.trans_le (min_le_right _ _)
  · obtain ⟨δ', hδ', h'⟩ := strip walls hab hle (fun w hw s hs0 hs1 => hpar w hw s (by linarith) (by linarith))
    refine ⟨min δ δ', lt_min hδ hδ', fun s hs0 hs1 => ?_⟩
    refine (h s hs0 (hs1.trans_le (min_le_left _ _))).tail (h' (σ * s) (mul_ne_zero hσ0 hs0.ne') ?_).2
    rw [abs_mul, hσa, one_mul, abs_of_pos hs0]; exact hs1.trans_le (min_le_right _ _)

/-- Near a point that is on no wall everything is reachable. -/
theorem free_near {walls : List (Pt × Pt)} {p : Pt} (h : OffAll walls p) :
    ∃ r > 0, ∀ z : Pt, |z.x - p.x| < r → |z.y - p.y| < r → Free walls p z ∧ Free walls z p := by
  obtain ⟨r, hr, hn⟩ := near_point walls p
  refine ⟨r, hr, fun z h1 h2 => ⟨?_, ?_⟩⟩
  · rintro y ⟨x, hx0, hx1, rfl⟩ w hw hy
    refine h w hw (hn w hw _ ?_ ?_ hy)
    · have := conv_abs (x := 0) (y := z.x - p.x) (by simpa using hr) h1 hx0 hx1
      simp only [pointAt]; convert this using 2; ring
    · have := conv_abs (x := 0) (y := z.y - p.y) (by simpa using hr) h2 hx0 hx1
      simp only [pointAt]; convert this using 2; ring
  · rintro y ⟨x, hx0, hx1, rfl⟩ w hw hy
    refine h w hw (hn w hw _ ?_ ?_ hy)
    · have := conv_abs (y := 0) (x := z.x - p.x) h1 (by simpa using hr) hx0 hx1
      simp only [pointAt]; convert this using 2; ring
    · have := conv_abs (y := 0) (x := z.y - p.y) h2 (by simpa using hr) hx0 hx1
      simp only [pointAt]; convert this using 2; ring

section
variable {walls : List (Pt × Pt)} {patch : ℝ} {t r : Pt} {c : List ℤ} {pts : List Pt}

theorem ray_noPause (h : RayPath walls patch t r c pts) (hc : IsCandidate walls.length c) (hne : c ≠ []) : NoPause pts := by
  have hwl : (wallsAt walls c).length = c.length := wallsAt_length hc
  refine noPause_of_specular (ws := wallsAt walls c) ⟨by rw [h.count, hwl], fun i w a b c' hw ha hb hc' => ?_⟩ (by
    intro e; rw [e] at hwl; exact hne (List.length_eq_zero_iff.mp hwl.symm))
  obtain ⟨j, hi, hj⟩ := (wallsAt_get walls c hc.1 i w).mp hw
  exact (h.reflected i j w a b c' hi hj ha hb hc').1

/-- The step number `i` does not touch, strictly inside, the walls where it starts and ends. -/
theorem ray_adjacent (h : RayPath walls patch t r c pts) {i j : ℕ} {w : Pt × Pt} {a b : Pt} (ha : pts[i]? = some a) (hb : pts[i + 1]? = some b)
    (hj : walls[j]? = some w) (hadj : Adjacent c i j) : side w.1 w.2 a ≠ 0 ∧ side w.1 w.2 b = 0 ∨ side w.1 w.2 a = 0 ∧ side w.1 w.2 b ≠ 0 := by
  have hl := h.count
  have line : ∀ {q : Pt}, OnLine w.1 w.2 q → side w.1 w.2 q = 0 := by
    rintro q ⟨s, rfl⟩; simp only [side, pointAt]; ring
  rcases hadj with hi | ⟨k, rfl, hi⟩
  · have hlt := (List.getElem?_eq_some_iff.mp hi).1
    have hR := (h.reflected i j w a b _ hi hj ha hb (List.getElem?_eq_getElem (by omega))).1
    exact .inl ⟨fun e => by have := hR.same; rw [e] at this; simp at this, line hR.on⟩
  · have hlt := (List.getElem?_eq_some_iff.mp hi).1
    have hR := (h.reflected k j w _ a b hi hj (List.getElem?_eq_getElem (by omega)) ha hb).1
    exact .inr ⟨line hR.on, fun e => by have := hR.same; rw [e] at this; simp at this⟩

/-- The other walls that the step touches are parallel to it. -/
theorem ray_parallel (h : RayPath walls patch t r c pts) (hp : -(1 / 202) ≤ patch) {i j : ℕ} {w : Pt × Pt} {a b : Pt} (ha : pts[i]? = some a)
    (hb : pts[i + 1]? = some b) (hj : walls[j]? = some w) (hadj : ¬ Adjacent c i j) {s : ℝ} (h0 : 0 ≤ s) (h1 : s ≤ 1) (hs : OnSegment w.1 w.2 (pointAt a b s)) :
    Parallel w.1 w.2 a b := by
  by_contra hpar
  obtain ⟨u, hu0, hu1, hu⟩ := hs
  refine h.clear i j w a b ha hb hj hadj ⟨hpar, u, s, hu.symm, ⟨by linarith, by linarith⟩, by linarith, by linarith⟩

theorem ray_inside (h : RayPath walls patch t r c pts) (hp : -(1 / 202) ≤ patch) {i : ℕ} {a b : Pt} (ha : pts[i]? = some a)
    (hb : pts[i + 1]? = some b) : ∀ w ∈ walls, ∀ s, 0 < s → s < 1 → OnSegment w.1 w.2 (pointAt a b s) → Parallel w.1 w.2 a b := by
  intro w hw s h0 h1 hs
  obtain ⟨j, hj⟩ := List.mem_iff_getElem?.mp hw
  by_cases hadj : Adjacent c i j
  · exfalso
    have e : side w.1 w.2 (pointAt a b s) = 0 := by
      obtain ⟨u, -, -, hu⟩ := hs
      rw [hu]; simp only [side, pointAt]; ring
    rw [side_lin] at e
    rcases ray_adjacent h ha hb hj hadj with ⟨h2, h3⟩ | ⟨h2, h3⟩
    · rw [h3] at e
      rcases mul_eq_zero.mp (show (1 - s) * side w.1 w.2 a = 0 by linarith) with h4 | h4
      · linarith
      · exact h2 h4
    · rw [h2] at e
      rcases mul_eq_zero.mp (show s * side w.1 w.2 b = 0 by linarith) with h4 | h4
      · linarith
      · exact h3 h4
  · exact ray_parallel h hp ha hb hj hadj h0.le h1.le hs

/-- Every flank of the path can be reached. -/
theorem ray_flanks (hnd : ∀ w ∈ walls, w.1 ≠ w.2) (h : RayPath walls patch t r c pts) (hc : IsCandidate walls.length c) (hp : -(1 / 202) ≤ patch) (ht : OffAll walls t)
    (hpause : NoPause pts) : ∀ (i : ℕ) (a b : Pt), pts[i]? = some a → pts[i + 1]? = some b → ∃ σ, (σ = 1 ∨ σ = -1) ∧ ∀ τ, 0 < τ → τ < 1 → Flank walls t a b σ τ := by
  intro i
  induction i with
  | zero =>
    intro a b ha hb
    obtain rfl : t = a := by
      have := h.start
      rw [List.head?_eq_getElem?, ha] at this
      exact (Option.some.inj this).symm
    refine ⟨1, .inl rfl, fun τ h0 h1 => ?_⟩
    have hab := hpause 0 t b ha hb
    obtain ⟨ρ, hρ, hfree⟩ := free_near ht
    set M := |b.x - t.x| + |b.y - t.y| with hM
    have hM0 : 0 ≤ M := by positivity
    have hη : 0 < ρ / (2 * (M + 1)) := by positivity
    refine flank_spread hab (.inl rfl) (ray_inside h hp ha hb) (τ := min (1 / 2) (ρ / (2 * (M + 1)) / 2)) (by positivity)
      (lt_of_le_of_lt (min_le_left _ _) (by norm_num)) h0 h1 ?_
    refine ⟨ρ / (2 * (M + 1)), hη, fun s hs0 hs1 => .single ?_⟩
    have := near_start (b := t) (c := b) hM.symm.le hρ (τ := min (1 / 2) (ρ / (2 * (M + 1)) / 2)) (s := 1 * s)
      (by rw [abs_of_pos (by positivity)]; exact lt_of_le_of_lt (min_le_right _ _) (by linarith)) (by rwa [one_mul, abs_of_pos hs0])
    exact (hfree _ this.1 this.2).1
  | succ i ih =>
    intro b c' hb hc'
    have hl := h.count
    have hi2 := (List.getElem?_eq_some_iff.mp hc').1
    obtain ⟨a, ha⟩ : ∃ a, pts[i]? = some a := ⟨_, List.getElem?_eq_getElem (by omega)⟩
    obtain ⟨σ, hσ, hfl⟩ := ih a b ha hb
    have hci : c[i]? = some c[i] := List.getElem?_eq_getElem (by omega)
    obtain ⟨hk0, hk1⟩ := hc.1 c[i] (List.getElem_mem _)
    obtain ⟨j, hj⟩ : ∃ j : ℕ, c[i] = (j : ℤ) := ⟨c[i].toNat, by omega⟩
    rw [hj] at hci
    obtain ⟨w, hw⟩ : ∃ w, walls[j]? = some w := ⟨_, List.getElem?_eq_getElem (by omega)⟩
    obtain ⟨hR, hon⟩ := h.reflected i j w a b c' hci hw ha hb hc'
    have hb0 : side w.1 w.2 b = 0 := by
      obtain ⟨s, hs⟩ := hR.on
      rw [hs]; simp only [side, pointAt]; ring
    have hab := hpause i a b ha hb
    have hbc := hpause (i + 1) b c' hb hc'
    obtain ⟨σ', hσ', η, hη, hcor⟩ := corner walls (w := w) hab hb0 hR.same (fun v hv hvb => by
      obtain ⟨k, hk⟩ := List.mem_iff_getElem?.mp hv
      by_cases hkj : k = j
      · subst hkj
        rw [hw] at hk; cases hk
        left
        rintro z ⟨s, -, -, rfl⟩
        simp only [side, pointAt]; ring
      · right
        have hv0 : side v.1 v.2 b = 0 := by
          obtain ⟨u, -, -, hu⟩ := hvb
          rw [hu]; simp only [side, pointAt]; ring
        have n1 : ¬ Adjacent c i k := by
          rintro (h5 | ⟨m, rfl, h5⟩)
          · rw [hci] at h5; have := Option.some.inj h5; omega
          · have hm := (List.getElem?_eq_some_iff.mp h5).1
            have := (h.reflected m k v _ a b h5 hk (List.getElem?_eq_getElem (by omega)) ha hb).1.same
            rw [hv0] at this; simp at this
        have n2 : ¬ Adjacent c (i + 1) k := by
          rintro (h5 | ⟨m, hm, h5⟩)
          · have hm := (List.getElem?_eq_some_iff.mp h5).1
            have := (h.reflected (i + 1) k v b c' _ h5 hk hb hc' (List.getElem?_eq_getElem (by omega))).1.same
            rw [hv0] at this; simp at this
          · obtain rfl : i = m := by omega
            rw [hci] at h5; have := Option.some.inj h5; omega
        refine ⟨hnd v hv, ray_parallel h hp ha hb hk n1 zero_le_one le_rfl ?_, ray_parallel h hp hb hc' hk n2 le_rfl zero_le_one ?_⟩
        · have : pointAt a b 1 = b := by ext <;> simp [pointAt]
          rwa [this]
        · have : pointAt b c' 0 = b := by ext <;> simp [pointAt]
          rwa [this]) σ hσ
    refine ⟨σ', hσ', fun τ h0 h1 => ?_⟩
    have m0 : 0 < min (1 / 2) (η / 2) := by positivity
    have m1 : min (1 / 2) (η / 2) < 1 := lt_of_le_of_lt (min_le_left _ _) (by norm_num)
    have m2 : min (1 / 2) (η / 2) < η := lt_of_le_of_lt (min_le_right _ _) (by linarith)
    refine flank_spread hbc hσ' (ray_inside h hp hb hc') m0 m1 h0 h1 ?_
    obtain ⟨δ, hδ, hcor⟩ := hcor (1 - min (1 / 2) (η / 2)) (min (1 / 2) (η / 2)) (by linarith) (by linarith) m0 m2
    obtain ⟨δ', hδ', hfl⟩ := hfl (1 - min (1 / 2) (η / 2)) (by linarith) (by linarith)
    have e0 : 0 < min δ δ' / 2 := by positivity
    have e1 : min δ δ' / 2 < δ := by have := min_le_left δ δ'; linarith
    have e2 : min δ δ' / 2 < δ' := by have := min_le_right δ δ'; linarith
    exact ⟨δ, hδ, fun s hs0 hs1 => (hfl _ e0 e2).tail (hcor _ s e0 e1 hs0 hs1)⟩

/-- A physical ray path can be followed, at a small distance, without meeting a wall. -/
theorem ray_connected (hnd : ∀ w ∈ walls, w.1 ≠ w.2) (h : RayPath walls patch t r c pts) (hc : IsCandidate walls.length c) (hp : -(1 / 202) ≤ patch) (ht : OffAll walls t)
    (hr : OffAll walls r) : ReflTransGen (Free walls) t r := by
  have hl := h.count
  by_cases htr : t = r
  · rw [htr]
  have hpause : NoPause pts := by
    by_cases hce : c = []
    · subst hce
      intro i a b ha hb
      have hi := (List.getElem?_eq_some_iff.mp hb).1
      simp only [List.length_nil] at hl
      obtain rfl : i = 0 := by omega
      have h1 := h.start
      have h2 := h.finish
      rw [List.head?_eq_getElem?, ha] at h1
      rw [List.getLast?_eq_getElem?, hl, hb] at h2
      cases h1; cases h2
      exact htr
    · exact ray_noPause h hc hce
  obtain ⟨a, ha⟩ : ∃ a, pts[c.length]? = some a := ⟨_, List.getElem?_eq_getElem (by omega)⟩
  have hb : pts[c.length + 1]? = some r := by
    have := h.finish
    rw [List.getLast?_eq_getElem?, hl] at this
    simpa using this
  obtain ⟨σ, hσ, hfl⟩ := ray_flanks hnd h hc hp ht hpause c.length a r ha hb
  obtain ⟨ρ, hρ, hfree⟩ := free_near hr
  set M := |r.x - a.x| + |r.y - a.y| with hM
  have hM0 : 0 ≤ M := by positivity
  have hη : 0 < ρ / (2 * (M + 1)) := by positivity
  have m0 : 0 < min (1 / 2) (ρ / (2 * (M + 1)) / 2) := by positivity
  have m1 : min (1 / 2) (ρ / (2 * (M + 1)) / 2) ≤ 1 / 2 := min_le_left _ _
  have m2 : min (1 / 2) (ρ / (2 * (M + 1)) / 2) < ρ / (2 * (M + 1)) := lt_of_le_of_lt (min_le_right _ _) (by linarith)
  obtain ⟨δ, hδ, hfl⟩ := hfl (1 - min (1 / 2) (ρ / (2 * (M + 1)) / 2)) (by linarith) (by linarith)
  have e0 : 0 < min δ (ρ / (2 * (M + 1))) / 2 := by positivity
  have e1 : min δ (ρ / (2 * (M + 1))) / 2 < δ := by have := min_le_left δ (ρ / (2 * (M + 1))); linarith
  have e2 : min δ (ρ / (2 * (M + 1))) / 2 < ρ / (2 * (M + 1)) := by have := min_le_right δ (ρ / (2 * (M + 1))); linarith
  refine (hfl _ e0 e1).tail ?_
  have hσa : |σ| = 1 := by rcases hσ with rfl | rfl <;> simp
  have := near_end (a := a) (b := r) hM.symm.le hρ (τ := 1 - min (1 / 2) (ρ / (2 * (M + 1)) / 2)) (s := σ * (min δ (ρ / (2 * (M + 1))) / 2))
    (by rw [sub_sub_cancel, abs_of_pos m0]; exact m2) (by rw [abs_mul, hσa, one_mul, abs_of_pos e0]; exact e2)
  exact (hfree _ this.1 this.2).2

end

/-- **C110.** Walls are opaque: if the walls of a scene separate a transmitter from a receiver, `all_valid_paths` yields no path between them, of any order. -/
theorem C110_opaque {Key : Type} (G : GraphLib) (hG : GraphContract G) (tx rx : PyDict Pt)
    (ht : Distinct tx) (hr : Distinct rx) (walls : List (Pt × Pt)) (hnd : ∀ w ∈ walls, w.1 ≠ w.2)
    (lo hi : ℤ) (hlo : 0 ≤ lo) (split : Key → ℕ → List Key) (key : Option Key)
    (E : Env) (approx : Option Bool) (hh : Hard E approx) (kw : ActKw) (tol patch : ℝ) (h0 : 0 < tol) (h1 : tol ≤ 1) (hp : -(1 / 202) ≤ patch) :
    ∃ out, (wallScene tx rx walls).allValidPaths G split (imageMethod Key) { minOrder := lo, maxOrder := hi }
        ⟨E, F.fin tol, F.fin patch, approx, kw⟩ key = .ok out ∧
      ∀ tn t rn r, (tn, t) ∈ tx → (rn, r) ∈ rx → Separates walls t r → ∀ path c, (tn, rn, path, c) ∉ out := by
  obtain ⟨out, e, -, s1, -⟩ := C74_valid_paths G hG tx rx ht hr walls hnd lo hi hlo split key E approx hh kw tol patch h0 h1 (by linarith)
  refine ⟨out, e, fun tn t rn r htm hrm hsep path c hmem => ?_⟩
  obtain ⟨t', r', pts, a1, a2, a3, -, -, -, a7⟩ := s1 _ _ _ _ hmem
  have inj : ∀ (d : PyDict Pt), Distinct d → ∀ (n : String) (a b : Pt), (n, a) ∈ d → (n, b) ∈ d → a = b := by
    intro d hd n a b ha hb
    have := List.inj_on_of_nodup_map hd ha hb rfl
    exact congrArg Prod.snd this
  obtain rfl := inj tx ht _ _ _ htm a1
  obtain rfl := inj rx hr _ _ _ hrm a2
  obtain ⟨k1, k2, k3⟩ := hsep
  have hne : t ≠ r := fun h => k3 (h ▸ .refl)
  exact k3 (ray_connected hnd (a7 fun _ h => absurd h hne) a3 hp k1 k2)

/-- **C110.** Where the walls separate a transmitter from a receiver nothing is received: whatever the function (real valued on real paths), the value that
`accumulate_over_paths` gives for the pair is zero. -/
theorem C110_dark {Key : Type} (G : GraphLib) (hG : GraphContract G) (tx rx : PyDict Pt)
    (ht : Distinct tx) (hr : Distinct rx) (walls : List (Pt × Pt)) (hnd : ∀ w ∈ walls, w.1 ≠ w.2) (lo hi : ℤ) (hlo : 0 ≤ lo)
    (hex : ∃ c, InRange walls.length lo hi c) (split : Key → ℕ → List Key) (key : Option Key)
    (f : Scene.PathFun) (g : Pt → Pt → List Pt → ℝ) (hf : RealFun f g)
    (E : Env) (ap : Option Bool) (hh : Hard E ap) (kw : ActKw) (tol patch : ℝ) (h0 : 0 < tol) (h1 : tol ≤ 1) (hp : -(1 / 202) ≤ patch)
    (hmove : ∀ t ∈ tx, ∀ r ∈ rx, ∀ w ∈ walls, OnLine w.1 w.2 t.2 → t.2 ≠ r.2) :
    ∃ out, (wallScene tx rx walls).accumulateOverPaths G split (imageMethod Key) { minOrder := lo, maxOrder := hi }
        ⟨E, F.fin tol, F.fin patch, ap, kw⟩ key f = .ok out ∧
      ∀ (k : ℕ) (p : (String × Pt) × (String × Pt)), (tx ×ˢ rx)[k]? = some p → Separates walls p.1.2 p.2.2 → out[k]? = some (p.1.1, p.2.1, F.fin 0) := by
  obtain ⟨rays, hm, e⟩ := C81_sum G hG tx rx ht hr walls hnd lo hi hlo hex split key f g hf E ap hh kw tol patch h0 h1 (by linarith) hmove
  refine ⟨_, e, fun k p hk hsep => ?_⟩
  obtain ⟨hp1, hp2⟩ := List.mem_product.mp (List.mem_of_getElem? hk)
  rw [List.getElem?_map, hk, Option.map_some]
  have : rays p.1.2 p.2.2 = ∅ := by
    rw [Finset.eq_empty_iff_forall_notMem]
    rintro ⟨c, pts⟩ hmem
    obtain ⟨hin, hray⟩ := (hm _ hp1 _ hp2 c pts).mp hmem
    exact hsep.2.2 (ray_connected hnd hray hin.1 hp hsep.1 hsep.2.1)
  rw [this, Finset.sum_empty]

/-! ### Convex rooms -/

/-- A room whose walls `walls` make up the boundary of the intersection of half planes separates its inside from its outside. -/
theorem C110_room (walls : List (Pt × Pt)) (faces : List (Pt × Pt))
    (hroom : ∀ p : Pt, (∀ f ∈ faces, 0 ≤ side f.1 f.2 p) → (∃ f ∈ faces, side f.1 f.2 p = 0) → ∃ w ∈ walls, OnSegment w.1 w.2 p)
    (t r : Pt) (ht : ∀ f ∈ faces, 0 < side f.1 f.2 t) (hr : ∃ f ∈ faces, side f.1 f.2 r < 0) (hot : OffAll walls t) (hor : OffAll walls r) : Separates walls t r := by
  refine ⟨hot, hor, fun hcon => ?_⟩
  -- the inside is closed under free moves
  have step : ∀ p q, (∀ f ∈ faces, 0 < side f.1 f.2 p) → Free walls p q → ∀ f ∈ faces, 0 < side f.1 f.2 q := by
    intro p q hp hfree
    -- the first time a face is reached
    by_contra hq
    push Not at hq
    have : ∀ fs : List (Pt × Pt), (∀ f ∈ fs, 0 < side f.1 f.2 p) → (∃ f ∈ fs, side f.1 f.2 q ≤ 0) →
        ∃ s, 0 ≤ s ∧ s ≤ 1 ∧ (∀ f ∈ fs, 0 ≤ side f.1 f.2 (pointAt p q s)) ∧ ∃ f ∈ fs, side f.1 f.2 (pointAt p q s) = 0 := by
      intro fs
      induction fs with
      | nil => simp
      | cons f fs ih =>
        intro hfp hfq
        have hf := hfp f (by simp)
        by_cases hex : ∃ g ∈ fs, side g.1 g.2 q ≤ 0
        · obtain ⟨s, s0, s1, hs, g, hg, hg0⟩ := ih (fun g hg => hfp g (by simp [hg])) hex
          by_cases hfs : 0 ≤ side f.1 f.2 (pointAt p q s)
          · exact ⟨s, s0, s1, by simpa using ⟨hfs, fun a b h => hs (a, b) h⟩, g, by simp [hg], hg0⟩
          · -- the face `f` is reached before
            push Not at hfs
            rw [side_lin] at hfs
            have hd : 0 < side f.1 f.2 p - side f.1 f.2 q := by nlinarith
            refine ⟨side f.1 f.2 p / (side f.1 f.2 p - side f.1 f.2 q), by positivity, ?_, ?_, f, by simp, ?_⟩
            · rw [div_le_one hd]; nlinarith
            · intro g' hg'
              rcases List.mem_cons.mp hg' with rfl | hg'
              · rw [side_lin]
                have : side g'.1 g'.2 p + side g'.1 g'.2 p / (side g'.1 g'.2 p - side g'.1 g'.2 q) * (side g'.1 g'.2 q - side g'.1 g'.2 p) = 0 := by field_simp; ring
                rw [this]
              · have h1 := hs g' hg'
                have h2 := hfp g' (by simp [hg'])
                rw [side_lin] at h1 ⊢
                set u := side f.1 f.2 p / (side f.1 f.2 p - side f.1 f.2 q) with hu
                have hu0 : 0 ≤ u := by positivity
                have hus : u ≤ s := by
                  rw [hu, div_le_iff₀ hd]; linarith
                by_cases hss : s = 0
                · have : u = 0 := by linarith
                  rw [this]; linarith
                · have hs' : 0 < s := lt_of_le_of_ne s0 (Ne.symm hss)
                  have e : s * (side g'.1 g'.2 p + u * (side g'.1 g'.2 q - side g'.1 g'.2 p)) =
                      (s - u) * side g'.1 g'.2 p + u * (side g'.1 g'.2 p + s * (side g'.1 g'.2 q - side g'.1 g'.2 p)) := by ring
                  have : 0 ≤ s * (side g'.1 g'.2 p + u * (side g'.1 g'.2 q - side g'.1 g'.2 p)) := by
                    rw [e]; have := mul_nonneg (sub_nonneg.mpr hus) h2.le; have := mul_nonneg hu0 h1; linarith
                  exact nonneg_of_mul_nonneg_right this hs'
            · rw [side_lin]; field_simp; ring
        · push Not at hex
          have hfq' : side f.1 f.2 q ≤ 0 := by
            obtain ⟨g, hg, hg0⟩ := hfq
            rcases List.mem_cons.mp hg with rfl | hg
            · exact hg0
            · exact absurd hg0 (not_le.mpr (hex g hg))
          have hd : 0 < side f.1 f.2 p - side f.1 f.2 q := by linarith
          have hu0 : 0 ≤ side f.1 f.2 p / (side f.1 f.2 p - side f.1 f.2 q) := by positivity
          have hu1 : side f.1 f.2 p / (side f.1 f.2 p - side f.1 f.2 q) ≤ 1 := by rw [div_le_one hd]; linarith
          have hz : side f.1 f.2 (pointAt p q (side f.1 f.2 p / (side f.1 f.2 p - side f.1 f.2 q))) = 0 := by rw [side_lin]; field_simp; ring
          refine ⟨_, hu0, hu1, ?_, f, by simp, hz⟩
          intro g' hg'
          rcases List.mem_cons.mp hg' with rfl | hg'
          · exact hz.ge
          · rw [side_lin]
            exact (conv_pos (hfp g' (by simp [hg'])) (hex g' hg') hu0 hu1).le
    obtain ⟨s, s0, s1, h1, h2⟩ := this faces hp hq
    obtain ⟨w, hw, hon⟩ := hroom _ h1 h2
    exact hfree _ ⟨s, s0, s1, rfl⟩ w hw hon
  have inside : ∀ q, ReflTransGen (Free walls) t q → ∀ f ∈ faces, 0 < side f.1 f.2 q := by
    intro q hq
    induction hq with
    | refl => exact ht
    | tail _ h ih => exact step _ _ ih h
  obtain ⟨f, hf, hneg⟩ := hr
  linarith [inside r hcon f hf]

/-- More walls separate at least as much. -/
theorem C110_more {walls walls' : List (Pt × Pt)} (hsub : ∀ w ∈ walls, w ∈ walls') {t r : Pt} (h : Separates walls t r) (ht : OffAll walls' t) (hr : OffAll walls' r) :
    Separates walls' t r :=
  ⟨ht, hr, fun hcon => h.2.2 (ReflTransGen.mono (fun _ _ hf z hz w hw => hf z hz w (hsub w hw)) _ _ hcon)⟩

/-- The triangle of the example: its corners are `(0, 0)`, `(4, 0)` and `(0, 4)`. -/
theorem triangle_separates : Separates [(⟨0, 0⟩, ⟨4, 0⟩), (⟨4, 0⟩, ⟨0, 4⟩), (⟨0, 4⟩, ⟨0, 0⟩)] ⟨1, 1⟩ ⟨3, 3⟩ := by
  refine C110_room _ [(⟨0, 0⟩, ⟨4, 0⟩), (⟨4, 0⟩, ⟨0, 4⟩), (⟨0, 4⟩, ⟨0, 0⟩)] ?_ _ _ ?_ ?_ ?_ ?_
  · intro p hp hz
    simp only [List.mem_cons, List.not_mem_nil, or_false, forall_eq_or_imp, forall_eq, exists_eq_or_imp, exists_eq_left, side] at hp hz ⊢
    obtain ⟨p1, p2, p3⟩ := hp
    rcases hz with h | h | h
    · exact .inl ⟨p.x / 4, by linarith, by linarith, by ext <;> simp only [pointAt] <;> linarith⟩
    · exact .inr (.inl ⟨p.y / 4, by linarith, by linarith, by ext <;> simp only [pointAt] <;> linarith⟩)
    · exact .inr (.inr ⟨1 - p.y / 4, by linarith, by linarith, by ext <;> simp only [pointAt] <;> linarith⟩)
  · simp only [List.mem_cons, List.not_mem_nil, or_false, forall_eq_or_imp, forall_eq, side]; norm_num
  · exact ⟨(⟨4, 0⟩, ⟨0, 4⟩), by simp, by norm_num [side]⟩
  · intro w hw
    simp only [List.mem_cons, List.not_mem_nil, or_false] at hw
    rcases hw with rfl | rfl | rfl <;> rintro ⟨s, -, -, e⟩ <;> have e1 := congrArg V2.x e <;> have e2 := congrArg V2.y e <;>
      simp only [pointAt] at e1 e2 <;> linarith
  · intro w hw
    simp only [List.mem_cons, List.not_mem_nil, or_false] at hw
    rcases hw with rfl | rfl | rfl <;> rintro ⟨s, -, -, e⟩ <;> have e1 := congrArg V2.x e <;> have e2 := congrArg V2.y e <;>
      simp only [pointAt] at e1 e2 <;> linarith

/-- Non-vacuity: a transmitter in a triangular room with a partition that touches nothing, and a receiver outside: up to three reflections, nothing is accumulated. -/
example (E : Env) (kw : ActKw) (f : Scene.PathFun) (g : Pt → Pt → List Pt → ℝ) (hf : RealFun f g) :
    ∃ out, (wallScene [("tx", ⟨1, 1⟩)] [("rx", ⟨3, 3⟩)] [(⟨0, 0⟩, ⟨4, 0⟩), (⟨4, 0⟩, ⟨0, 4⟩), (⟨0, 4⟩, ⟨0, 0⟩), (⟨2, 1⟩, ⟨2, 3 / 2⟩)]).accumulateOverPaths refLib
      (fun _ : Unit => fun _ => []) (imageMethod Unit) { minOrder := 0, maxOrder := 3 } ⟨E, F.fin (1 / 100), F.fin 0, some false, kw⟩ none f = .ok out ∧
        out[0]? = some ("tx", "rx", F.fin 0) := by
  have hsep : Separates [(⟨0, 0⟩, ⟨4, 0⟩), (⟨4, 0⟩, ⟨0, 4⟩), (⟨0, 4⟩, ⟨0, 0⟩), (⟨2, 1⟩, ⟨2, 3 / 2⟩)] ⟨1, 1⟩ ⟨3, 3⟩ := by
    refine C110_more (by simp) triangle_separates ?_ ?_ <;> intro w hw <;> simp only [List.mem_cons, List.not_mem_nil, or_false] at hw <;>
      rcases hw with rfl | rfl | rfl | rfl <;> rintro ⟨s, -, -, e⟩ <;> have e1 := congrArg V2.x e <;> have e2 := congrArg V2.y e <;>
      simp only [pointAt] at e1 e2 <;> linarith
  obtain ⟨out, e, h⟩ := C110_dark refLib refLib_contract [("tx", ⟨1, 1⟩)] [("rx", ⟨3, 3⟩)] (by simp [Distinct]) (by simp [Distinct])
    [(⟨0, 0⟩, ⟨4, 0⟩), (⟨4, 0⟩, ⟨0, 4⟩), (⟨0, 4⟩, ⟨0, 0⟩), (⟨2, 1⟩, ⟨2, 3 / 2⟩)] (by simp; norm_num) 0 3 le_rfl ⟨[], by simp [InRange, IsCandidate]⟩ (fun _ : Unit => fun _ => []) none
    f g hf E (some false) (.inl rfl) kw (1 / 100) 0 (by norm_num) (by norm_num) (by norm_num) (by intro t ht r hr w hw _; simp at ht hr; subst ht hr; simp)
  exact ⟨out, e, h 0 _ rfl hsep⟩

theorem offRoom {x0 x1 y0 y1 : ℝ} (hx : x0 < x1) (hy : y0 < y1) {p : Pt}
    (h : (x0 < p.x ∧ p.x < x1 ∧ y0 < p.y ∧ p.y < y1) ∨ p.x < x0 ∨ x1 < p.x ∨ p.y < y0 ∨ y1 < p.y) : OffAll (roomWalls x0 x1 y0 y1) p := by
  intro w hw hon
  simp only [roomWalls, List.mem_cons, List.not_mem_nil, or_false] at hw
  obtain ⟨s, h0, h1, rfl⟩ := hon
  rcases hw with rfl | rfl | rfl | rfl <;> simp only [pointAt] at h <;> rcases h with ⟨a, b, c, d⟩ | h | h | h | h <;> nlinarith

/-- The walls of a rectangular room separate the inside from the outside. -/
theorem C110_rectangle (x0 x1 y0 y1 : ℝ) (hx : x0 < x1) (hy : y0 < y1) (t r : Pt) (ht : x0 < t.x ∧ t.x < x1 ∧ y0 < t.y ∧ t.y < y1)
    (hr : r.x < x0 ∨ x1 < r.x ∨ r.y < y0 ∨ y1 < r.y) : Separates (roomWalls x0 x1 y0 y1) t r := by
  obtain ⟨t1, t2, t3, t4⟩ := ht
  refine C110_room _ (roomWalls x0 x1 y0 y1) ?_ t r ?_ ?_ (offRoom hx hy (.inl ⟨t1, t2, t3, t4⟩)) (offRoom hx hy (.inr hr))
  · intro p hp hz
    simp only [roomWalls, List.mem_cons, List.not_mem_nil, or_false, forall_eq_or_imp, forall_eq, exists_eq_or_imp, exists_eq_left, side] at hp hz ⊢
    obtain ⟨p1, p2, p3, p4⟩ := hp
    have a1 : y0 ≤ p.y := by by_contra h; nlinarith
    have a2 : p.x ≤ x1 := by by_contra h; nlinarith
    have a3 : p.y ≤ y1 := by by_contra h; nlinarith
    have a4 : x0 ≤ p.x := by by_contra h; nlinarith
    have dx : (0 : ℝ) < x1 - x0 := by linarith
    have dy : (0 : ℝ) < y1 - y0 := by linarith
    rcases hz with h | h | h | h
    · left
      have : p.y = y0 := by rcases mul_eq_zero.mp (show (x1 - x0) * (p.y - y0) = 0 by linarith) with h | h <;> linarith
      refine ⟨(p.x - x0) / (x1 - x0), by apply div_nonneg <;> linarith, by rw [div_le_one dx]; linarith, ?_⟩
      ext
      · simp only [pointAt]; field_simp; ring
      · simp only [pointAt]; linarith
    · right; left
      have : p.x = x1 := by rcases mul_eq_zero.mp (show (y1 - y0) * (p.x - x1) = 0 by linarith) with h | h <;> linarith
      refine ⟨(p.y - y0) / (y1 - y0), by apply div_nonneg <;> linarith, by rw [div_le_one dy]; linarith, ?_⟩
      ext
      · simp only [pointAt]; linarith
      · simp only [pointAt]; field_simp; ring
    · right; right; left
      have : p.y = y1 := by rcases mul_eq_zero.mp (show (x1 - x0) * (p.y - y1) = 0 by linarith) with h | h <;> linarith
      refine ⟨(x1 - p.x) / (x1 - x0), by apply div_nonneg <;> linarith, by rw [div_le_one dx]; linarith, ?_⟩
      ext
      · simp only [pointAt]; field_simp; ring
      · simp only [pointAt]; linarith
    · right; right; right
      have : p.x = x0 := by rcases mul_eq_zero.mp (show (y1 - y0) * (p.x - x0) = 0 by linarith) with h | h <;> linarith
      refine ⟨(y1 - p.y) / (y1 - y0), by apply div_nonneg <;> linarith, by rw [div_le_one dy]; linarith, ?_⟩
      ext
      · simp only [pointAt]; linarith
      · simp only [pointAt]; field_simp; ring
  · simp only [roomWalls, List.mem_cons, List.not_mem_nil, or_false, forall_eq_or_imp, forall_eq, side]
    refine ⟨?_, ?_, ?_, ?_⟩ <;> nlinarith
  · simp only [roomWalls, List.mem_cons, List.not_mem_nil, or_false, exists_eq_or_imp, exists_eq_left, side]
    rcases hr with h | h | h | h
    · right; right; right; nlinarith
    · right; left; nlinarith
    · left; nlinarith
    · right; right; left; nlinarith

theorem squareScene_walls (tx rx : Pt) : Scene.squareScene (V2.fin tx) (V2.fin rx) = wallScene [("tx", tx)] [("rx", rx)] (roomWalls 0 1 0 1) := by
  rw [C67_square, wallScene]
  congr 1
  simp [closedPolygon, squareCorners, roomCentre, List.rotate, roomWalls]
  norm_num

/-- No path leaves the preset square room, of any order. -/
theorem C110_square {Key : Type} (G : GraphLib) (hG : GraphContract G) (t r : Pt) (ht : 0 < t.x ∧ t.x < 1 ∧ 0 < t.y ∧ t.y < 1)
    (hr : r.x < 0 ∨ 1 < r.x ∨ r.y < 0 ∨ 1 < r.y) (lo hi : ℤ) (hlo : 0 ≤ lo) (split : Key → ℕ → List Key) (key : Option Key)
    (E : Env) (approx : Option Bool) (hh : Hard E approx) (kw : ActKw) :
    (Scene.squareScene (V2.fin t) (V2.fin r)).allValidPaths G split (imageMethod Key) { minOrder := lo, maxOrder := hi } ⟨E, F.fin (1 / 100), F.fin 0, approx, kw⟩ key = .ok [] := by
  rw [squareScene_walls]
  obtain ⟨out, e, h⟩ := C110_opaque G hG [("tx", t)] [("rx", r)] (by simp [Distinct]) (by simp [Distinct]) (roomWalls 0 1 0 1) (by simp [roomWalls])
    lo hi hlo split key E approx hh kw (1 / 100) 0 (by norm_num) (by norm_num) (by norm_num)
  obtain ⟨out', e', -, s1, -⟩ := C74_valid_paths G hG [("tx", t)] [("rx", r)] (by simp [Distinct]) (by simp [Distinct]) (roomWalls 0 1 0 1) (by simp [roomWalls])
    lo hi hlo split key E approx hh kw (1 / 100) 0 (by norm_num) (by norm_num) (by norm_num)
  rw [e] at e'; cases e'
  rw [e]
  congr 1
  rw [List.eq_nil_iff_forall_not_mem]
  rintro ⟨tn, rn, path, c⟩ hm
  obtain ⟨t', r', pts, a1, a2, -⟩ := s1 _ _ _ _ hm
  simp only [List.mem_singleton, Prod.mk.injEq] at a1 a2
  obtain ⟨rfl, rfl⟩ := a1
  obtain ⟨rfl, rfl⟩ := a2
  exact h _ _ _ _ (by simp) (by simp) (C110_rectangle 0 1 0 1 one_pos one_pos _ _ ht hr) path c hm

end DiffeRT2d.Props
