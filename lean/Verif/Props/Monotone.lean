import Verif.Props.Patch
import Verif.Props.Fields

/-! # C82: accumulated values grow with the orders and the tolerance, and decrease with the patch -/

namespace DiffeRT2d.Props
open Classical Spec

theorem le_fin {a b : ℝ} (h : Le (F.fin a) (F.fin b)) : a ≤ b := by
  obtain ⟨x, y, hx, hy, hxy⟩ := h
  simp only [toEReal, Option.some.injEq] at hx hy
  rw [← hx, ← hy] at hxy
  exact_mod_cast hxy

/-- The validity of a path traced in a scene of walls, as a real number. -/
theorem validity_real (t r : Pt) (walls : List (Pt × Pt)) (c : List ℤ) (hc : IsCandidate walls.length c)
    (E : Env) (ap : Option Bool) (kw : ActKw) (hmode : Hard E ap ∨ (Soft E ap ∧ GoodKw kw)) (tol patch : ℝ) :
    ∃ valid, (finitePath (rpath t r (wallsAt walls c)) (scores (wallsAt walls c) (rpath t r (wallsAt walls c))).sum).isValid E
        ((wallsOf walls).map Obj.interact) c ((wallsOf (wallsAt walls c)).map Obj.interact) (F.fin tol) (F.fin patch) ap kw = .ok valid ∧
      ∃ v : ℝ, valid.toF = F.fin v ∧ 0 ≤ v := by
  have hl : (finitePath (rpath t r (wallsAt walls c)) (scores (wallsAt walls c) (rpath t r (wallsAt walls c))).sum).xys.length = c.length + 2 := by
    simp [finitePath, rpath_length, wallsAt_length hc]
  rcases hmode with hh | ⟨hh, hk⟩
  · obtain ⟨v, e, -⟩ := C38_hard _ E ap hh kw ((wallsOf walls).map Obj.interact) ((wallsOf (wallsAt walls c)).map Obj.interact) c (F.fin tol) (F.fin patch) hl
      (by simp [wallsOf, wallsAt_length hc])
    refine ⟨_, e, if v then 1 else 0, ?_, ?_⟩
    · cases v <;> simp [Truthy.toF]
    · split_ifs <;> norm_num
  · have fz : ∀ ws : List (Pt × Pt), ∀ o ∈ (wallsOf ws).map Obj.interact, FuzzyObject E ap kw o := by
      intro ws o ho
      obtain ⟨x, hx, rfl⟩ := List.mem_map.mp ho
      obtain ⟨w, -, rfl⟩ := List.mem_map.mp hx
      exact (C38_builtin E ap hh kw hk).1 _
    obtain ⟨v, e, h0, -⟩ := C38_soft _ E ap hh kw hk ((wallsOf walls).map Obj.interact) ((wallsOf (wallsAt walls c)).map Obj.interact) c (F.fin tol)
      (F.fin patch) hl.le (fz _) (fz _)
    exact ⟨_, e, v, rfl, h0⟩

/-- **C82.** With a function that is not negative, the value that `accumulate_over_paths` gives for a pair does not decrease when the
range of orders grows, when the tolerance grows, or when the patch (at least -1/2) shrinks; in hard mode, or in approximate mode with a
good activation. Walls may be degenerate, and points may be anywhere. -/
theorem C82_monotone {Key : Type} (G : GraphLib) (hG : GraphContract G) (tx rx : PyDict Pt)
    (ht : Distinct tx) (hr : Distinct rx) (walls : List (Pt × Pt)) (lo hi lo' hi' : ℤ)
    (hlo : 0 ≤ lo') (hll : lo' ≤ lo) (hhh : hi ≤ hi')
    (hex : ∃ c, InRange walls.length lo hi c) (split : Key → ℕ → List Key) (key : Option Key)
    (f : Scene.PathFun) (g : Pt → Pt → List Pt → ℝ) (hf : RealFun f g) (hg : ∀ t r pts, 0 ≤ g t r pts)
    (E : Env) (ap : Option Bool) (kw : ActKw) (hmode : Hard E ap ∨ (Soft E ap ∧ GoodKw kw)) (tol tol' patch patch' : ℝ)
    (htol : tol ≤ tol') (hp : -(1 / 2) ≤ patch') (hpp : patch' ≤ patch) :
    ∃ value value' : String × Pt → String × Pt → ℝ,
      (wallScene tx rx walls).accumulateOverPaths G split (imageMethod Key) { minOrder := lo, maxOrder := hi }
        ⟨E, F.fin tol, F.fin patch, ap, kw⟩ key f = .ok ((tx ×ˢ rx).map fun p => (p.1.1, p.2.1, F.fin (value p.1 p.2))) ∧
      (wallScene tx rx walls).accumulateOverPaths G split (imageMethod Key) { minOrder := lo', maxOrder := hi' }
        ⟨E, F.fin tol', F.fin patch', ap, kw⟩ key f = .ok ((tx ×ˢ rx).map fun p => (p.1.1, p.2.1, F.fin (value' p.1 p.2))) ∧
      ∀ p ∈ tx ×ˢ rx, value p.1 p.2 ≤ value' p.1 p.2 := by
  have hsub : ∀ c, InRange walls.length lo hi c → InRange walls.length lo' hi' c := fun c h => ⟨h.1, by linarith [h.2.1], by linarith [h.2.2]⟩
  obtain ⟨cs, hcs, hcd, hcm, hne⟩ := cands_walls G hG tx rx walls lo hi (by omega) hex
  obtain ⟨cs', hcs', hcd', hcm', hne'⟩ := cands_walls G hG tx rx walls lo' hi' hlo (hex.imp hsub)
  let P : Pt → Pt → List ℤ → ℝ → ℝ → Truthy → Prop := fun t r c tol patch valid =>
    (finitePath (rpath t r (wallsAt walls c)) (scores (wallsAt walls c) (rpath t r (wallsAt walls c))).sum).isValid E
        ((wallsOf walls).map Obj.interact) c ((wallsOf (wallsAt walls c)).map Obj.interact) (F.fin tol) (F.fin patch) ap kw = .ok valid
  let rv : ℝ → ℝ → Pt → Pt → List ℤ → ℝ := fun tol patch t r c => if h : ∃ v : ℝ, ∃ valid, P t r c tol patch valid ∧ valid.toF = F.fin v then h.choose else 0
  have hrv : ∀ tol patch t r c, IsCandidate walls.length c → ∃ valid, P t r c tol patch valid ∧ valid.toF = F.fin (rv tol patch t r c) ∧ 0 ≤ rv tol patch t r c := by
    intro tol patch t r c hc
    obtain ⟨valid, h1, v, h2, h3⟩ := validity_real t r walls c hc E ap kw hmode tol patch
    have hE : ∃ v : ℝ, ∃ valid, P t r c tol patch valid ∧ valid.toF = F.fin v := ⟨v, valid, h1, h2⟩
    have e : rv tol patch t r c = hE.choose := dif_pos hE
    obtain ⟨valid', g1, g2⟩ := hE.choose_spec
    obtain rfl : valid' = valid := Except.ok.inj (g1.symm.trans h1)
    rw [e]
    refine ⟨_, g1, g2, ?_⟩
    rw [h2] at g2
    rw [← F.fin_inj.mp g2]; exact h3
  let value : ℝ → ℝ → List (List ℤ) → String × Pt → String × Pt → ℝ := fun tol patch l t r =>
    (l.map fun c => rv tol patch t.2 r.2 c * g t.2 r.2 (rpath t.2 r.2 (wallsAt walls c))).sum
  refine ⟨value tol patch cs, value tol' patch' cs', accumulate_walls G hG tx rx ht hr walls lo hi (by omega) cs hcs hcd hcm hne split key ⟨E, F.fin tol, F.fin patch, ap, kw⟩ f g hf
      (rv tol patch) (fun t _ r _ c hc => by
        obtain ⟨valid, h1, h2, -⟩ := hrv tol patch t.2 r.2 c ((hcm c).mp hc).1
        exact ⟨valid, h1, h2⟩),
    accumulate_walls G hG tx rx ht hr walls lo' hi' hlo cs' hcs' hcd' hcm' hne' split key ⟨E, F.fin tol', F.fin patch', ap, kw⟩ f g hf
      (rv tol' patch') (fun t _ r _ c hc => by
        obtain ⟨valid, h1, h2, -⟩ := hrv tol' patch' t.2 r.2 c ((hcm' c).mp hc).1
        exact ⟨valid, h1, h2⟩), ?_⟩
  rintro ⟨t, r⟩ -
  simp only [value]
  rw [← List.sum_toFinset _ hcd, ← List.sum_toFinset _ hcd']
  have mono : ∀ c, IsCandidate walls.length c → rv tol patch t.2 r.2 c ≤ rv tol' patch' t.2 r.2 c := by
    intro c hc
    obtain ⟨v1, g1, g2, -⟩ := hrv tol patch t.2 r.2 c hc
    obtain ⟨v2, k1, k2, -⟩ := hrv tol' patch t.2 r.2 c hc
    obtain ⟨v3, l1, l2, -⟩ := hrv tol' patch' t.2 r.2 c hc
    obtain ⟨v2', m1, m2⟩ := isValid_tolerance _ E _ c _ htol _ ap kw hmode v1 g1
    obtain rfl : v2' = v2 := Except.ok.inj (m1.symm.trans k1)
    have hshape : ∀ ws : List (Pt × Pt), wallsOf ws = (ws.map fun w => Shape.wall w.1 w.2).map Shape.obj := by intro ws; simp [wallsOf, Shape.obj]
    obtain ⟨u3, u2, n1, n2, n3⟩ := isValid_patch (rpath t.2 r.2 (wallsAt walls c)) (F.fin (scores (wallsAt walls c) (rpath t.2 r.2 (wallsAt walls c))).sum) E
      (walls.map fun w => Shape.wall w.1 w.2) ((wallsAt walls c).map fun w => Shape.wall w.1 w.2) c (by rw [rpath_length, wallsAt_length hc]) (F.fin tol') hp hpp ap kw hmode
    rw [← hshape, ← hshape] at n1 n2
    obtain rfl : u3 = v3 := Except.ok.inj (n1.symm.trans l1)
    obtain rfl : u2 = v2' := Except.ok.inj (n2.symm.trans k1)
    rw [g2, k2] at m2
    rw [k2, l2] at n3
    exact (le_fin m2).trans (le_fin n3)
  refine (Finset.sum_le_sum fun c hc => mul_le_mul_of_nonneg_right (mono c ((hcm c).mp (List.mem_toFinset.mp hc)).1) (hg _ _ _)).trans ?_
  apply Finset.sum_le_sum_of_subset_of_nonneg
  · intro c hc
    rw [List.mem_toFinset] at hc ⊢
    exact (hcm' c).mpr (hsub c ((hcm c).mp hc))
  · intro c hc _
    obtain ⟨-, -, -, h0⟩ := hrv tol' patch' t.2 r.2 c ((hcm' c).mp (List.mem_toFinset.mp hc)).1
    exact mul_nonneg h0 (hg _ _ _)

/-- Non-vacuity: a wall, a transmitter and a receiver, in both modes, with the function that counts paths. -/
example (E : Env) (kw : ActKw) := C82_monotone (Key := ℕ) refLib refLib_contract [("tx", ⟨0, 1⟩)] [("rx", ⟨2, 1⟩)] (by simp [Distinct])
  (by simp [Distinct]) [(⟨0, 0⟩, ⟨3, 0⟩)] 0 0 0 1 le_rfl le_rfl (by norm_num)
  ⟨[], ⟨by simp, by simp⟩, by simp, by simp⟩ (fun _ _ => []) none (fun _ _ _ _ => F.fin 1)
  (fun _ _ _ => 1) (fun _ _ _ _ _ _ => rfl) (fun _ _ _ => zero_le_one) E (some false) kw (.inl (.inl rfl)) (1 / 100) (1 / 10) 1 0 (by norm_num)
  (by norm_num) (by norm_num)

example (E : Env) := C82_monotone (Key := ℕ) refLib refLib_contract [("tx", ⟨0, 1⟩)] [("rx", ⟨2, 1⟩)] (by simp [Distinct])
  (by simp [Distinct]) [(⟨0, 0⟩, ⟨3, 0⟩)] 0 0 0 1 le_rfl le_rfl (by norm_num)
  ⟨[], ⟨by simp, by simp⟩, by simp, by simp⟩ (fun _ _ => []) none (fun _ _ _ _ => F.fin 1)
  (fun _ _ _ => 1) (fun _ _ _ _ _ _ => rfl) (fun _ _ _ => zero_le_one) E (some true) {} (.inr ⟨.inl rfl, goodKw_default⟩) (1 / 100) (1 / 10) 1 0
  (by norm_num) (by norm_num) (by norm_num)

end DiffeRT2d.Props
