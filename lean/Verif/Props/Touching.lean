import Verif.Props.Laws

/-! # C125: walls that touch or coincide -/

namespace DiffeRT2d.Props
open Classical Spec

theorem onLine_side {o d p : Pt} (h : OnLine o d p) : side o d p = 0 := by
  obtain ⟨s, rfl⟩ := h
  simp only [side, pointAt]; ring

theorem side_onLine {o d p : Pt} (hnd : o ≠ d) (h : side o d p = 0) : OnLine o d p := by
  simp only [side] at h
  by_cases hx : d.x - o.x = 0
  · have hy : d.y - o.y ≠ 0 := by
      intro hy
      exact hnd (V2.ext (by linarith) (by linarith))
    refine ⟨(p.y - o.y) / (d.y - o.y), ?_⟩
    have e : p.x - o.x = 0 := by
      rw [hx, zero_mul, zero_sub, neg_eq_zero] at h
      exact (mul_eq_zero.mp h).resolve_left hy
    ext
    · simp only [pointAt, hx, mul_zero]; linarith
    · simp only [pointAt]; rw [div_mul_cancel₀ _ hy]; ring
  · refine ⟨(p.x - o.x) / (d.x - o.x), ?_⟩
    ext
    · simp only [pointAt]; rw [div_mul_cancel₀ _ hx]; ring
    · simp only [pointAt]
      rw [div_mul_eq_mul_div, show (p.x - o.x) * (d.y - o.y) = (p.y - o.y) * (d.x - o.x) by linarith, mul_div_cancel_right₀ _ hx]; ring

/-- A step that arrives at (or leaves from) a point of an extended wall goes along that wall, or the wall stops it. -/
theorem along_or_blocked {w : Pt × Pt} {patch : ℝ} {a b : Pt} (hnd : w.1 ≠ w.2) (h : OnExtended w patch a ∨ OnExtended w patch b)
    (hb : ¬ Blocks w patch a b) : OnLine w.1 w.2 a ∧ OnLine w.1 w.2 b := by
  have hpar : Parallel w.1 w.2 a b := by
    by_contra hpar
    refine hb ⟨hpar, ?_⟩
    rcases h with ⟨s, e, h1, h2⟩ | ⟨s, e, h1, h2⟩
    · refine ⟨s, 0, ?_, ⟨h1, h2⟩, by norm_num, by norm_num⟩
      rw [← e]; ext <;> simp [pointAt]
    · refine ⟨s, 1, ?_, ⟨h1, h2⟩, by norm_num, by norm_num⟩
      rw [← e]; ext <;> simp [pointAt]
  have hside : side w.1 w.2 a = side w.1 w.2 b := by
    simp only [Parallel] at hpar
    simp only [side]; linarith
  rcases h with ⟨s, e, -⟩ | ⟨s, e, -⟩
  · have h0 := onLine_side ⟨s, e⟩
    exact ⟨⟨s, e⟩, side_onLine hnd (by rw [← hside, h0])⟩
  · have h0 := onLine_side ⟨s, e⟩
    exact ⟨side_onLine hnd (by rw [hside, h0]), ⟨s, e⟩⟩

theorem law_normal {a b s m x D : ℝ} (hD : 0 < D) (hsame : 0 < (a - s) * x * ((b - s) * x)) (hlaw : (s - a) * m * (|b - s| * D) = (b - s) * m * (|s - a| * D)) :
    m = 0 := by
  obtain ⟨α, hα⟩ : ∃ α, α = a - s := ⟨_, rfl⟩
  obtain ⟨β, hβ⟩ : ∃ β, β = b - s := ⟨_, rfl⟩
  rw [show s - a = -α by linarith, ← hβ, abs_neg] at hlaw
  rw [← hα, ← hβ] at hsame
  have hab : 0 < α * β := by
    rcases lt_or_ge 0 (α * β) with h | h
    · exact h
    · have h1 : α * x * (β * x) = (α * β) * x ^ 2 := by ring
      have h2 := mul_nonpos_of_nonpos_of_nonneg h (sq_nonneg x)
      linarith
  have hmm : m * D * (2 * (α * β)) = 0 := by
    rcases lt_trichotomy α 0 with h | h | h
    · have hb : β < 0 := neg_of_mul_pos_right hab h.le
      rw [abs_of_neg hb, abs_of_neg h] at hlaw
      linear_combination hlaw
    · rw [h, zero_mul] at hab; exact absurd hab (lt_irrefl _)
    · have hb : 0 < β := pos_of_mul_pos_right hab h.le
      rw [abs_of_pos hb, abs_of_pos h] at hlaw
      linear_combination -hlaw
  rcases mul_eq_zero.mp hmm with h | h
  · exact (mul_eq_zero.mp h).resolve_right hD.ne'
  · linarith

/-- **C125.** If a physical path is reflected at a point that is also on another wall (extended by the patch and the tolerance), the path comes
along that other wall, the two walls are perpendicular, and the path goes back where it comes from. -/
theorem C125_touching {walls : List (Pt × Pt)} {patch : ℝ} {t r : Pt} {c : List ℤ} {pts : List Pt} (h : RayPath walls patch t r c pts)
    {i j j' : ℕ} {w w' : Pt × Pt} {p q q' : Pt} (hi : c[i]? = some (j : ℤ)) (hw : walls[j]? = some w) (hw' : walls[j']? = some w') (hne : j' ≠ j)
    (hnd : w'.1 ≠ w'.2) (hp : pts[i]? = some p) (hq : pts[i + 1]? = some q) (hq' : pts[i + 2]? = some q') (ht : OnExtended w' patch q) :
    OnLine w'.1 w'.2 p ∧ OnLine w'.1 w'.2 q' ∧ Orthogonal w.1 w.2 w'.1 w'.2 := by
  obtain ⟨hr, -⟩ := h.reflected i j w p q q' hi hw hp hq hq'
  have hql : OnLine w'.1 w'.2 q := by obtain ⟨s, e, -⟩ := ht; exact ⟨s, e⟩
  have h1 : OnLine w'.1 w'.2 p := by
    by_cases hadj : Adjacent c i j'
    · rcases hadj with ha | ⟨k, rfl, ha⟩
      · rw [hi] at ha; exact absurd (by exact_mod_cast (Option.some.inj ha).symm) hne
      · have hk : k < pts.length := by have := (List.getElem?_eq_some_iff.mp hp).1; omega
        exact (h.reflected k j' w' _ p q ha hw' (List.getElem?_eq_getElem hk) hp hq).1.on
    · exact (along_or_blocked hnd (.inr ht) (h.clear i j' w' p q hp hq hw' hadj)).1
  have h2 : OnLine w'.1 w'.2 q' := by
    by_cases hadj : Adjacent c (i + 1) j'
    · rcases hadj with ha | ⟨k, hk, ha⟩
      · have hl : i + 1 + 2 < pts.length := by
          have := (List.getElem?_eq_some_iff.mp ha).1
          rw [h.count]; omega
        exact (h.reflected (i + 1) j' w' q q' _ ha hw' hq hq' (List.getElem?_eq_getElem hl)).1.on
      · obtain rfl : k = i := by omega
        rw [hi] at ha; exact absurd (by exact_mod_cast (Option.some.inj ha).symm) hne
    · exact (along_or_blocked hnd (.inl ht) (h.clear (i + 1) j' w' q q' hq hq' hw' hadj)).2
  refine ⟨h1, h2, ?_⟩
  obtain ⟨a, rfl⟩ := h1
  obtain ⟨s, rfl⟩ := hql
  obtain ⟨b, rfl⟩ := h2
  have hon := onLine_side hr.on
  have hsame := hr.same
  have hlaw := hr.law
  set D := Real.sqrt ((w'.2.x - w'.1.x) ^ 2 + (w'.2.y - w'.1.y) ^ 2) with hD
  have hD0 : 0 < D := by
    refine Real.sqrt_pos.mpr ?_
    rcases lt_or_eq_of_le (add_nonneg (sq_nonneg (w'.2.x - w'.1.x)) (sq_nonneg (w'.2.y - w'.1.y))) with h | h
    · exact h
    · exfalso
      apply hnd
      have e1 : (w'.2.x - w'.1.x) ^ 2 = 0 := by nlinarith [sq_nonneg (w'.2.x - w'.1.x), sq_nonneg (w'.2.y - w'.1.y)]
      have e2 : (w'.2.y - w'.1.y) ^ 2 = 0 := by nlinarith [sq_nonneg (w'.2.x - w'.1.x), sq_nonneg (w'.2.y - w'.1.y)]
      have e1 := pow_eq_zero_iff (two_ne_zero) |>.mp e1
      have e2 := pow_eq_zero_iff (two_ne_zero) |>.mp e2
      exact V2.ext (by linarith) (by linarith)
  have he : ∀ u v, eucl (pointAt w'.1 w'.2 u) (pointAt w'.1 w'.2 v) = |v - u| * D := by
    intro u v
    rw [hD, ← Real.sqrt_sq_eq_abs, ← Real.sqrt_mul (sq_nonneg _)]
    unfold eucl pointAt
    congr 1; ring
  rw [he, he] at hlaw
  set m := (w.2.x - w.1.x) * (w'.2.x - w'.1.x) + (w.2.y - w.1.y) * (w'.2.y - w'.1.y) with hm
  have hal : ∀ u v, along w (pointAt w'.1 w'.2 u) (pointAt w'.1 w'.2 v) = (v - u) * m := by
    intro u v; simp only [along, pointAt, hm]; ring
  rw [hal, hal] at hlaw
  set x := (w.2.x - w.1.x) * (w'.2.y - w'.1.y) - (w.2.y - w.1.y) * (w'.2.x - w'.1.x) with hx
  have hs : ∀ u, side w.1 w.2 (pointAt w'.1 w'.2 u) = (u - s) * x := by
    intro u
    have : side w.1 w.2 (pointAt w'.1 w'.2 u) = (u - s) * x + side w.1 w.2 (pointAt w'.1 w'.2 s) := by
      simp only [side, pointAt, hx]; ring
    rw [this, hon, add_zero]
  rw [hs, hs] at hsame
  exact law_normal hD0 hsame hlaw

/-- **C125.** No physical path is reflected by a wall at a point that is also on another wall of the same line (extended by the patch and the
tolerance). -/
theorem C125_collinear {walls : List (Pt × Pt)} {patch : ℝ} {t r : Pt} {c : List ℤ} {pts : List Pt} (h : RayPath walls patch t r c pts)
    {i j j' : ℕ} {w w' : Pt × Pt} {q : Pt} (hi : c[i]? = some (j : ℤ)) (hw : walls[j]? = some w) (hw' : walls[j']? = some w') (hne : j' ≠ j)
    (hnd : w'.1 ≠ w'.2) (h1 : OnLine w.1 w.2 w'.1) (h2 : OnLine w.1 w.2 w'.2) (hq : pts[i + 1]? = some q) : ¬ OnExtended w' patch q := by
  intro ht
  have hl : i + 2 < pts.length := by
    have := (List.getElem?_eq_some_iff.mp hi).1
    rw [h.count]; omega
  have hp : pts[i]? = some pts[i] := List.getElem?_eq_getElem (by omega)
  have hq' : pts[i + 2]? = some pts[i + 2] := List.getElem?_eq_getElem hl
  obtain ⟨a, -, -⟩ := C125_touching h hi hw hw' hne hnd hp hq hq' ht
  have hr := (h.reflected i j w _ q _ hi hw hp hq hq').1.same
  have hz : side w.1 w.2 pts[i] = 0 := by
    obtain ⟨u, e⟩ := a
    have e1 := onLine_side h1
    have e2 := onLine_side h2
    rw [e]
    have : side w.1 w.2 (pointAt w'.1 w'.2 u) = (1 - u) * side w.1 w.2 w'.1 + u * side w.1 w.2 w'.2 := by
      simp only [side, pointAt]; ring
    rw [this, e1, e2]; ring
  rw [hz, zero_mul] at hr
  exact lt_irrefl _ hr

/-- **C125.** The physical paths of a scene in which a wall is listed a second time are those of the scene that are not reflected by this wall. -/
theorem C125_rays {walls : List (Pt × Pt)} {patch : ℝ} (hp : 0 ≤ patch) {t r : Pt} {c : List ℤ} {pts : List Pt} {j : ℕ} {w : Pt × Pt} (hw : walls[j]? = some w)
    (hnd : w.1 ≠ w.2) :
    RayPath (walls ++ [w]) patch t r c pts ↔ RayPath walls patch t r c pts ∧ (j : ℤ) ∉ c ∧ (walls.length : ℤ) ∉ c := by
  have hjl := (List.getElem?_eq_some_iff.mp hw).1
  have hold : ∀ k : ℕ, k < walls.length → (walls ++ [w])[k]? = walls[k]? := fun k hk => List.getElem?_append_left hk
  have hnew : (walls ++ [w])[walls.length]? = some w := by simp
  constructor
  · intro h
    have key : ∀ k k' : ℕ, k' ≠ k → (walls ++ [w])[k]? = some w → (walls ++ [w])[k']? = some w → (k : ℤ) ∉ c := by
      intro k k' hne hk hk' hm
      obtain ⟨i, hi, e⟩ := List.mem_iff_getElem.mp hm
      have hi' : c[i]? = some (k : ℤ) := by rw [List.getElem?_eq_getElem hi, e]
      have hl : i + 2 < pts.length := by rw [h.count]; omega
      have g1 : pts[i]? = some pts[i] := List.getElem?_eq_getElem (by omega)
      have g2 : pts[i + 1]? = some pts[i + 1] := List.getElem?_eq_getElem (by omega)
      have g3 : pts[i + 2]? = some pts[i + 2] := List.getElem?_eq_getElem hl
      obtain ⟨s, s0, s1, e⟩ := (h.reflected i k w _ _ _ hi' hk g1 g2 g3).2
      refine C125_collinear h hi' hk hk' hne hnd ⟨0, by ext <;> simp [pointAt]⟩ ⟨1, by ext <;> simp [pointAt]⟩ g2 ⟨s, e, ?_, ?_⟩
      · nlinarith
      · nlinarith
    have n1 := key j walls.length (by omega) (by rw [hold j hjl, hw]) hnew
    have n2 := key walls.length j (by omega) hnew (by rw [hold j hjl, hw])
    refine ⟨⟨h.start, h.finish, h.count, ?_, ?_⟩, n1, n2⟩
    · intro i k w' p q q' hi hk
      exact h.reflected i k w' p q q' hi (by rw [hold k (List.getElem?_eq_some_iff.mp hk).1, hk])
    · intro i k w' p q ha hb hk
      exact h.clear i k w' p q ha hb (by rw [hold k (List.getElem?_eq_some_iff.mp hk).1, hk])
  · rintro ⟨h, n1, n2⟩
    have cases' : ∀ (k : ℕ) (w' : Pt × Pt), (walls ++ [w])[k]? = some w' → walls[k]? = some w' ∨ (k = walls.length ∧ w' = w) := by
      intro k w' hk
      rcases lt_trichotomy k walls.length with hlt | heq | hgt
      · left; rw [← hold k hlt, hk]
      · right; rw [heq, hnew] at hk; exact ⟨heq, (Option.some.inj hk).symm⟩
      · rw [List.getElem?_eq_none (by simp; omega)] at hk; cases hk
    refine ⟨h.start, h.finish, h.count, ?_, ?_⟩
    · intro i k w' p q q' hi hk
      rcases cases' k w' hk with hk | ⟨rfl, rfl⟩
      · exact h.reflected i k w' p q q' hi hk
      · exact absurd (List.mem_of_getElem? hi) n2
    · intro i k w' p q ha hb hk hadj
      rcases cases' k w' hk with hk | ⟨rfl, rfl⟩
      · exact h.clear i k w' p q ha hb hk hadj
      · refine h.clear i j w' p q ha hb hw ?_
        rintro (ha | ⟨k, -, ha⟩) <;> exact n1 (List.mem_of_getElem? ha)

section
variable {Key : Type} (G : GraphLib) (hG : GraphContract G) (tx rx : PyDict Pt) (ht : Distinct tx) (hr : Distinct rx) (walls : List (Pt × Pt))
  (hnd : ∀ w ∈ walls, w.1 ≠ w.2) (lo hi : ℤ) (hlo : 0 ≤ lo) (split : Key → ℕ → List Key) (key : Option Key)
  (E : Env) (approx : Option Bool) (hh : Hard E approx) (kw : ActKw) (tol patch : ℝ) (h0 : 0 < tol) (h1 : tol ≤ 1)

include hG ht hr hnd hlo hh h0 h1 in
/-- **C125.** Listing a wall a second time removes all reflections on it and changes nothing else: in hard mode, the valid paths are those of the
scene whose candidate does not name the wall (paths that stay at one point excepted). -/
theorem C125_duplicate (hp : 0 ≤ patch) (j : ℕ) (w : Pt × Pt) (hw : walls[j]? = some w) :
    ∃ out out', (wallScene tx rx walls).allValidPaths G split (imageMethod Key) { minOrder := lo, maxOrder := hi }
        ⟨E, F.fin tol, F.fin patch, approx, kw⟩ key = .ok out ∧
      (wallScene tx rx (walls ++ [w])).allValidPaths G split (imageMethod Key) { minOrder := lo, maxOrder := hi }
        ⟨E, F.fin tol, F.fin patch, approx, kw⟩ key = .ok out' ∧
      ∀ tn rn pts c, (c ≠ [] → Moves pts) →
        ((tn, rn, finitePath pts 0, c) ∈ out' ↔ (tn, rn, finitePath pts 0, c) ∈ out ∧ (j : ℤ) ∉ c) := by
  have hwm : w ∈ walls := List.mem_of_getElem? hw
  obtain ⟨out, e, -, s1, c1⟩ := C74_valid_paths G hG tx rx ht hr walls hnd lo hi hlo split key E approx hh kw tol patch h0 h1 (by linarith)
  obtain ⟨out', e', -, s2, c2⟩ := C74_valid_paths G hG tx rx ht hr (walls ++ [w])
    (by intro v hv; rcases List.mem_append.mp hv with hv | hv
        · exact hnd v hv
        · rw [List.mem_singleton.mp hv]; exact hnd w hwm) lo hi hlo split key E approx hh kw tol patch h0 h1 (by linarith)
  refine ⟨out, out', e, e', fun tn rn pts c hm => ⟨fun h => ?_, fun ⟨h, hj⟩ => ?_⟩⟩
  · obtain ⟨t, r, pts', a1, a2, a3, a4, a5, a6, a7⟩ := s2 _ _ _ _ h
    obtain ⟨rfl, -⟩ := finitePath_inj a6
    have hc : ∀ i ∈ c, 0 ≤ i ∧ i ≤ walls.length := by
      intro i hi
      have := a3.1 i hi
      rw [List.length_append, List.length_singleton] at this
      push_cast at this
      exact ⟨this.1, by omega⟩
    obtain ⟨hray, n1, n2⟩ := (C125_rays hp hw (hnd w hwm)).mp (a7 fun h _ => hm h)
    refine ⟨c1 _ _ _ _ _ _ a1 a2 ⟨fun i hi => ⟨(hc i hi).1, lt_of_le_of_ne (hc i hi).2 ?_⟩, a3.2⟩ a4 a5 hray, n1⟩
    rintro rfl
    exact n2 hi
  · obtain ⟨t, r, pts', a1, a2, a3, a4, a5, a6, a7⟩ := s1 _ _ _ _ h
    obtain ⟨rfl, -⟩ := finitePath_inj a6
    have hc : ∀ i ∈ c, 0 ≤ i ∧ i < walls.length := a3.1
    refine c2 _ _ _ _ _ _ a1 a2 ⟨fun i hi => ⟨(hc i hi).1, ?_⟩, a3.2⟩ a4 a5
      ((C125_rays hp hw (hnd w hwm)).mpr ⟨a7 fun h _ => hm h, hj, fun hn => lt_irrefl _ (hc _ hn).2⟩)
    rw [List.length_append, List.length_singleton]
    have := (hc i hi).2
    push_cast
    omega

include hG ht hr hnd hlo hh h0 h1 in
/-- **C125.** No valid path (hard mode) is reflected at a point that is also on another wall of the same line, extended by the patch and by 1/200 of
its length at each end: where a long wall is drawn in two pieces, there is a gap around the joint without reflections. -/
theorem C125_joints (hp : -(1 / 2) < patch) :
    ∃ out, (wallScene tx rx walls).allValidPaths G split (imageMethod Key) { minOrder := lo, maxOrder := hi }
        ⟨E, F.fin tol, F.fin patch, approx, kw⟩ key = .ok out ∧
      ∀ tn rn pts c, (tn, rn, finitePath pts 0, c) ∈ out → (c ≠ [] → Moves pts) → ∀ (i j j' : ℕ) (w w' : Pt × Pt) (q : Pt), c[i]? = some (j : ℤ) →
        walls[j]? = some w → walls[j']? = some w' → j' ≠ j → OnLine w.1 w.2 w'.1 → OnLine w.1 w.2 w'.2 → pts[i + 1]? = some q → ¬ OnExtended w' patch q := by
  obtain ⟨out, e, -, s1, -⟩ := C74_valid_paths G hG tx rx ht hr walls hnd lo hi hlo split key E approx hh kw tol patch h0 h1 hp
  refine ⟨out, e, fun tn rn pts c h hm i j j' w w' q hi hw hw' hne l1 l2 hq => ?_⟩
  obtain ⟨t, r, pts', a1, a2, a3, a4, a5, a6, a7⟩ := s1 _ _ _ _ h
  obtain ⟨rfl, -⟩ := finitePath_inj a6
  exact C125_collinear (a7 fun h _ => hm h) hi hw hw' hne (hnd _ (List.mem_of_getElem? hw')) l1 l2 hq

end

/-- Non-vacuity: the wall of the example is drawn again; the reflected path that the single wall gives (`example_rayPath`) is lost. -/
example (E : Env) (kw : ActKw) : ∃ out out', exScene.allValidPaths refLib (fun _ : Unit => fun _ => []) (imageMethod Unit)
      { minOrder := 0, maxOrder := 1 } (exOpts E kw (1 / 100) 0) none = .ok out ∧
    (wallScene [("tx", ⟨0, 1⟩)] [("rx", ⟨2, 1⟩)] [(⟨0, 0⟩, ⟨3, 0⟩), (⟨0, 0⟩, ⟨3, 0⟩)]).allValidPaths refLib (fun _ : Unit => fun _ => []) (imageMethod Unit)
      { minOrder := 0, maxOrder := 1 } (exOpts E kw (1 / 100) 0) none = .ok out' ∧
    ("tx", "rx", finitePath [⟨0, 1⟩, ⟨1, 0⟩, ⟨2, 1⟩] 0, [0]) ∈ out ∧
    ("tx", "rx", finitePath [⟨0, 1⟩, ⟨1, 0⟩, ⟨2, 1⟩] 0, [0]) ∉ out' := by
  obtain ⟨out, out', e, e', h⟩ := C125_duplicate refLib refLib_contract [("tx", ⟨0, 1⟩)] [("rx", ⟨2, 1⟩)] (by simp [Distinct])
    (by simp [Distinct]) [(⟨0, 0⟩, ⟨3, 0⟩)] exWall_ne 0 1 le_rfl (fun _ : Unit => fun _ => []) none E (some false) (.inl rfl) kw (1 / 100) 0
    (by norm_num) (by norm_num) le_rfl 0 _ rfl
  obtain ⟨out2, e2, -, -, h2⟩ := C74_valid_paths refLib refLib_contract [("tx", ⟨0, 1⟩)] [("rx", ⟨2, 1⟩)] (by simp [Distinct])
    (by simp [Distinct]) [(⟨0, 0⟩, ⟨3, 0⟩)] exWall_ne 0 1 le_rfl (fun _ : Unit => fun _ => []) none E (some false) (.inl rfl) kw (1 / 100) 0
    (by norm_num) (by norm_num) (by norm_num)
  rw [e] at e2; cases e2
  have hm := h2 _ _ _ _ _ _ (List.mem_singleton.mpr rfl) (List.mem_singleton.mpr rfl) ⟨by simp, by simp⟩ (by simp) (by simp) example_rayPath
  refine ⟨out, out', e, e', hm, fun hn => ?_⟩
  have := ((h _ _ _ _ fun _ => moves_of_noPause (by simp) (noPause_of_specular example_specular (by simp))).mp hn).2
  simp at this

end DiffeRT2d.Props
