import Verif.Lemmas.Room

/-! # The path to an image of the receiver in a room -/

namespace DiffeRT2d
open Spec

/-- One coordinate: where the straight line to an image leaves the interval. -/
theorem exit1 {z0 z1 z p : ℝ} {m : ℤ} (h0 : z0 < z) (h1 : z < z1) (p0 : z0 ≤ p) (p1 : p ≤ z1) (hlo : m < 0 → z0 < p) (hhi : 0 < m → p < z1) :
    ∃ s : ℝ, 0 < s ∧ s ≤ 1 ∧ (m = 0 → s = 1) ∧ (0 < m → s < 1 ∧ p + s * (cell z0 z1 z m - p) = z1) ∧ (m < 0 → s < 1 ∧ p + s * (cell z0 z1 z m - p) = z0) ∧
      ∀ s', 0 ≤ s' → s' ≤ s → z0 ≤ p + s' * (cell z0 z1 z m - p) ∧ p + s' * (cell z0 z1 z m - p) ≤ z1 := by
  have conv : ∀ a b s' : ℝ, z0 ≤ a → a ≤ z1 → z0 ≤ b → b ≤ z1 → 0 ≤ s' → s' ≤ 1 → z0 ≤ a + s' * (b - a) ∧ a + s' * (b - a) ≤ z1 := by
    intro a b s' a0 a1 b0 b1 s0 s1
    constructor <;> nlinarith
  have strict : ∀ n : ℤ, z0 + n * (z1 - z0) < cell z0 z1 z n ∧ cell z0 z1 z n < z1 + n * (z1 - z0) := by
    intro n; unfold cell; split_ifs <;> constructor <;> linarith
  obtain ⟨u0, u1⟩ := strict m
  generalize hu : cell z0 z1 z m = u at *
  rcases lt_trichotomy m 0 with hm | hm | hm
  · have hm' : (m : ℝ) ≤ -1 := by exact_mod_cast (by omega : m ≤ -1)
    have hlt : u < z0 := by nlinarith
    have hp := hlo hm
    have hd : u - p < 0 := by linarith
    have e : p + (z0 - p) / (u - p) * (u - p) = z0 := by rw [div_mul_cancel₀ _ hd.ne]; ring
    have spos : 0 < (z0 - p) / (u - p) := div_pos_of_neg_of_neg (by linarith) hd
    have slt : (z0 - p) / (u - p) < 1 := by rw [div_lt_one_of_neg hd]; linarith
    refine ⟨_, spos, slt.le, fun h => absurd h (by omega), fun h => absurd h (by omega), fun _ => ⟨slt, e⟩, fun s' s0 s1 => ⟨?_, ?_⟩⟩
    · nlinarith
    · nlinarith
  · subst hm
    simp only [Int.cast_zero, zero_mul, add_zero] at u0 u1
    refine ⟨1, one_pos, le_rfl, fun _ => rfl, fun h => absurd h (by omega), fun h => absurd h (by omega), fun s' s0 s1 => ?_⟩
    exact conv p u s' p0 p1 u0.le u1.le s0 s1
  · have hm' : (1 : ℝ) ≤ m := by exact_mod_cast (by omega : 1 ≤ m)
    have hlt : z1 < u := by nlinarith
    have hp := hhi hm
    have hd : 0 < u - p := by linarith
    have e : p + (z1 - p) / (u - p) * (u - p) = z1 := by rw [div_mul_cancel₀ _ hd.ne']; ring
    have spos : 0 < (z1 - p) / (u - p) := div_pos (by linarith) hd
    have slt : (z1 - p) / (u - p) < 1 := by rw [div_lt_one hd]; linarith
    refine ⟨_, spos, slt.le, fun h => absurd h (by omega), fun _ => ⟨slt, e⟩, fun h => absurd h (by omega), fun s' s0 s1 => ⟨?_, ?_⟩⟩
    · nlinarith
    · nlinarith

theorem keepsClear_tail {x0 x1 y0 y1 s : ℝ} {p u : Pt} (h : KeepsClear x0 x1 y0 y1 p u) (s0 : 0 ≤ s) (s1 : s ≤ 1) : KeepsClear x0 x1 y0 y1 (pointAt p u s) u := by
  intro s' j k h0 h1
  have := h (s + s' * (1 - s)) j k (by nlinarith) (by nlinarith)
  have e : pointAt (pointAt p u s) u s' = pointAt p u (s + s' * (1 - s)) := by ext <;> simp only [pointAt] <;> ring
  rw [e]; exact this

theorem keepsClear_flipx {x0 x1 y0 y1 : ℝ} {p u : Pt} (h : KeepsClear x0 x1 y0 y1 p u) (i : ℤ) :
    KeepsClear x0 x1 y0 y1 ⟨2 * (x0 + i * (x1 - x0)) - p.x, p.y⟩ ⟨2 * (x0 + i * (x1 - x0)) - u.x, u.y⟩ := by
  intro s j k h0 h1
  obtain ⟨a, b⟩ := h s (2 * i - j) k h0 h1
  simp only [pointAt] at a b ⊢
  push_cast at a b
  refine ⟨fun e => a (by linarith), fun e => ?_⟩
  have := b e
  rw [← abs_neg] at this
  convert this using 2; ring

theorem keepsClear_flipy {x0 x1 y0 y1 : ℝ} {p u : Pt} (h : KeepsClear x0 x1 y0 y1 p u) (i : ℤ) :
    KeepsClear x0 x1 y0 y1 ⟨p.x, 2 * (y0 + i * (y1 - y0)) - p.y⟩ ⟨u.x, 2 * (y0 + i * (y1 - y0)) - u.y⟩ := by
  intro s j k h0 h1
  obtain ⟨a, b⟩ := h s j (2 * i - k) h0 h1
  simp only [pointAt] at a b ⊢
  push_cast at a b
  refine ⟨fun e => ?_, fun e => b (by linarith)⟩
  have := a e
  rw [← abs_neg] at this
  convert this using 2; ring

theorem rimg_invol (o d p : Pt) : rimg o d (rimg o d p) = p := by
  rcases rn_sq_cases o d with hs | h0
  · ext <;> simp only [rimg, dp, V2.sub_x, V2.sub_y] at *
    · linear_combination (4 * ((p.x - o.x) * (rn o d).x + (p.y - o.y) * (rn o d).y) * (rn o d).x) * hs
    · linear_combination (4 * ((p.x - o.x) * (rn o d).x + (p.y - o.y) * (rn o d).y) * (rn o d).y) * hs
  · ext <;> simp [rimg, h0]

/-- A bounce, from the images. -/
theorem bounce {w : RWall} (hw : w.1 ≠ w.2) {p q u z : Pt} {k k' : ℝ} (hon : OnLine w.1 w.2 q) (hs : side w.1 w.2 p ≠ 0) (hk : 0 < k) (hu : u - q = V2.smul k (q - p))
    (hk' : 0 < k') (hz : rimg w.1 w.2 u - q = V2.smul k' (z - q)) : Reflects w p q z := by
  have hd := (onLine_iff hw q).mp hon
  refine reflects_of_aligned (k := k / k') hw hd ?_ (by positivity) ?_
  · obtain ⟨l, hl, hsd, -⟩ := side_rn w.1 w.2
    intro h
    apply hs
    rw [hsd]
    have : dp (p - w.1) (rn w.1 w.2) = 0 := by
      simp only [dp, V2.sub_x, V2.sub_y] at hd h ⊢; linear_combination hd - h
    rw [this]; ring
  · have h1 := refl_sub hd u
    have h2 : rimg w.1 w.2 u - q = V2.smul k (refl (rn w.1 w.2) (q - p)) := by
      have h1x := congrArg V2.x h1
      have h1y := congrArg V2.y h1
      have ux := congrArg V2.x hu
      have uy := congrArg V2.y hu
      simp only [refl, dp, V2.sub_x, V2.sub_y, V2.smul_x, V2.smul_y] at h1x h1y ux uy
      have e1 : q.x - u.x = -(k * (q.x - p.x)) := by linarith
      have e2 : q.y - u.y = -(k * (q.y - p.y)) := by linarith
      rw [e1, e2] at h1x h1y
      ext
      · simp only [refl, dp, V2.sub_x, V2.sub_y, V2.smul_x]; linear_combination h1x
      · simp only [refl, dp, V2.sub_x, V2.sub_y, V2.smul_y]; linear_combination h1y
    rw [hz] at h2
    have hx := congrArg V2.x h2
    have hy := congrArg V2.y h2
    simp only [V2.smul_x, V2.smul_y] at hx hy
    ext
    · simp only [V2.smul_x]; field_simp; linarith
    · simp only [V2.smul_y]; field_simp; linarith

/-- Away from the line of the wall with index `k` of the room. -/
def Far (x0 x1 y0 y1 : ℝ) (k : ℕ) (p : Pt) : Prop :=
  (k = 0 → y0 + (y1 - y0) / 200 < p.y) ∧ (k = 1 → p.x < x1 - (x1 - x0) / 200) ∧ (k = 2 → p.y < y1 - (y1 - y0) / 200) ∧ (k = 3 → x0 + (x1 - x0) / 200 < p.x)

/-- The last wall met is left behind. -/
def Behind (m m' : ℤ) (prev : Option ℕ) : Prop :=
  (prev = some 0 → 0 ≤ m') ∧ (prev = some 1 → m ≤ 0) ∧ (prev = some 2 → m' ≤ 0) ∧ (prev = some 3 → 0 ≤ m)

/-- The wall with index `k`. -/
def wl (x0 x1 y0 y1 : ℝ) (k : ℕ) : RWall := (roomWalls x0 x1 y0 y1).getD k (⟨0, 0⟩, ⟨0, 0⟩)

/-- The path from `p` to `r`, after the wall `prev`, towards the image `(m, m')`. -/
def PathTo (x0 x1 y0 y1 : ℝ) (r : Pt) (m m' : ℤ) (prev : Option ℕ) (p : Pt) (c : List ℕ) (qs : List Pt) : Prop :=
  (c.length : ℤ) = |m| + |m'| ∧
  List.Forall₂ (fun k q => k < 4 ∧ OnSegment (wl x0 x1 y0 y1 k).1 (wl x0 x1 y0 y1 k).2 q ∧ WithinRoom x0 x1 y0 y1 q ∧ ∀ k', k' ≠ k → Far x0 x1 y0 y1 k' q) c qs ∧
  ReflChain (c.map (wl x0 x1 y0 y1)) (p :: qs ++ [r]) ∧ List.IsChain (· ≠ ·) c ∧ (∀ k, c.head? = some k → prev ≠ some k) ∧
  unfoldImg r (c.map (wl x0 x1 y0 y1)) = roomImage x0 x1 y0 y1 r (m, m') ∧
  ∃ κ : ℝ, 0 < κ ∧ roomImage x0 x1 y0 y1 r (m, m') - p = V2.smul κ (qs.headD r - p)

section
variable {x0 x1 y0 y1 : ℝ} {r p q : Pt} {m m' μ μ' : ℤ} {prev : Option ℕ} {k : ℕ} {s : ℝ} {c : List ℕ} {qs : List Pt}

theorem pathTo_cons (hk4 : k < 4) (hw : (wl x0 x1 y0 y1 k).1 ≠ (wl x0 x1 y0 y1 k).2) (s0 : 0 < s) (s1 : s < 1) (hq : q = pointAt p (roomImage x0 x1 y0 y1 r (m, m')) s)
    (hon : OnSegment (wl x0 x1 y0 y1 k).1 (wl x0 x1 y0 y1 k).2 q) (hin : WithinRoom x0 x1 y0 y1 q) (hfar : ∀ k', k' ≠ k → Far x0 x1 y0 y1 k' q)
    (hs : side (wl x0 x1 y0 y1 k).1 (wl x0 x1 y0 y1 k).2 p ≠ 0) (hprev : prev ≠ some k)
    (himg : rimg (wl x0 x1 y0 y1 k).1 (wl x0 x1 y0 y1 k).2 (roomImage x0 x1 y0 y1 r (m, m')) = roomImage x0 x1 y0 y1 r (μ, μ')) (hm : |μ| + |μ'| + 1 = |m| + |m'|)
    (h : PathTo x0 x1 y0 y1 r μ μ' (some k) q c qs) : PathTo x0 x1 y0 y1 r m m' prev p (k :: c) (q :: qs) := by
  obtain ⟨h1, h2, h3, h4, h5, h7, κ, hκ, h6⟩ := h
  have hdir : roomImage x0 x1 y0 y1 r (m, m') - p = V2.smul (1 / s) (q - p) := by
    rw [hq]
    ext
    · simp only [pointAt, V2.sub_x, V2.smul_x]; field_simp; ring
    · simp only [pointAt, V2.sub_y, V2.smul_y]; field_simp; ring
  have hdir' : roomImage x0 x1 y0 y1 r (m, m') - q = V2.smul (1 / s - 1) (q - p) := by
    have hx := congrArg V2.x hdir
    have hy := congrArg V2.y hdir
    simp only [V2.sub_x, V2.sub_y, V2.smul_x, V2.smul_y] at hx hy
    ext
    · simp only [V2.sub_x, V2.smul_x]; linarith
    · simp only [V2.sub_y, V2.smul_y]; linarith
  have hpos : 0 < 1 / s - 1 := by
    have : 1 < 1 / s := by rw [lt_div_iff₀ s0]; linarith
    linarith
  refine ⟨?_, .cons ⟨hk4, hon, hin, hfar⟩ h2, ?_, ?_, ?_, ?_, 1 / s, by positivity, hdir⟩
  · rw [← hm, ← h1]; simp
  · rw [List.map_cons, reflChain_cons]
    exact ⟨bounce hw (hon.imp fun s h => h.2.2) hs hpos hdir' hκ (by rw [himg]; exact h6), h3⟩
  · rw [List.isChain_cons]
    refine ⟨fun k' hk' e => ?_, h4⟩
    exact h5 k' (by simpa using hk') (by rw [e])
  · intro k' hk'
    simp at hk'; rw [← hk']; exact hprev
  · rw [List.map_cons]
    simp only [unfoldImg]
    rw [h7, ← himg, rimg_invol]

theorem room_path (hx : x0 < x1) (hy : y0 < y1) (hr : WellInside x0 x1 y0 y1 r) (n : ℕ) : ∀ (m m' : ℤ) (prev : Option ℕ) (p : Pt), |m| + |m'| = n → WithinRoom x0 x1 y0 y1 p →
    (∀ k, prev ≠ some k → Far x0 x1 y0 y1 k p) → Behind m m' prev → KeepsClear x0 x1 y0 y1 p (roomImage x0 x1 y0 y1 r (m, m')) →
    ∃ c qs, PathTo x0 x1 y0 y1 r m m' prev p c qs := by
  have hW : 0 < (x1 - x0) / 200 := by linarith
  have hH : 0 < (y1 - y0) / 200 := by linarith
  obtain ⟨r1, r2, r3, r4⟩ := hr
  induction n with
  | zero =>
    intro m m' prev p hn hp hfar hb hc
    have e1 : m = 0 := abs_eq_zero.mp (by have := abs_nonneg m; have := abs_nonneg m'; push_cast at hn; omega)
    have e2 : m' = 0 := abs_eq_zero.mp (by have := abs_nonneg m; have := abs_nonneg m'; push_cast at hn; omega)
    subst e1 e2
    refine ⟨[], [], by simp, .nil, by simp [ReflChain], by simp, by simp, by ext <;> simp [unfoldImg, roomImage, cell_zero], 1, one_pos, ?_⟩
    ext <;> simp [roomImage, cell_zero]
  | succ n ih =>
    intro m m' prev p hn hp hfar hb hc
    obtain ⟨p1, p2, p3, p4⟩ := hp
    obtain ⟨b0, b1, b2, b3⟩ := hb
    have f0 : prev ≠ some 0 → y0 + (y1 - y0) / 200 < p.y := fun h => (hfar 0 h).1 rfl
    have f1 : prev ≠ some 1 → p.x < x1 - (x1 - x0) / 200 := fun h => (hfar 1 h).2.1 rfl
    have f2 : prev ≠ some 2 → p.y < y1 - (y1 - y0) / 200 := fun h => (hfar 2 h).2.2.1 rfl
    have f3 : prev ≠ some 3 → x0 + (x1 - x0) / 200 < p.x := fun h => (hfar 3 h).2.2.2 rfl
    have n0 : m' < 0 → prev ≠ some 0 := fun h e => absurd (b0 e) (by omega)
    have n1 : 0 < m → prev ≠ some 1 := fun h e => absurd (b1 e) (by omega)
    have n2 : 0 < m' → prev ≠ some 2 := fun h e => absurd (b2 e) (by omega)
    have n3 : m < 0 → prev ≠ some 3 := fun h e => absurd (b3 e) (by omega)
    obtain ⟨sx, sx0, sx1, sxz, sxh, sxl, sxin⟩ := exit1 (z0 := x0) (z1 := x1) (z := r.x) (p := p.x) (m := m) (by linarith) (by linarith) p1 p2
      (fun h => by linarith [f3 (n3 h)]) (fun h => by linarith [f1 (n1 h)])
    obtain ⟨sy, sy0, sy1, syz, syh, syl, syin⟩ := exit1 (z0 := y0) (z1 := y1) (z := r.y) (p := p.y) (m := m') (by linarith) (by linarith) p3 p4
      (fun h => by linarith [f0 (n0 h)]) (fun h => by linarith [f2 (n2 h)])
    rcases le_total sx sy with hs | hs
    · have hs1 : sx < 1 := by
        rcases lt_trichotomy m 0 with h | h | h
        · exact (sxl h).1
        · exfalso
          have hz := sxz h
          rcases lt_trichotomy m' 0 with h' | h' | h'
          · linarith [(syl h').1]
          · rw [h, h'] at hn; simp at hn; omega
          · linarith [(syh h').1]
        · exact (sxh h).1
      obtain ⟨q, hq⟩ : ∃ q, q = pointAt p (roomImage x0 x1 y0 y1 r (m, m')) sx := ⟨_, rfl⟩
      have hqx := sxin sx sx0.le le_rfl
      have hqy := syin sx sx0.le hs
      have hqin : WithinRoom x0 x1 y0 y1 q := by rw [hq]; exact ⟨hqx.1, hqx.2, hqy.1, hqy.2⟩
      obtain ⟨q1, q2, q3, q4⟩ := hqin
      have hqin : WithinRoom x0 x1 y0 y1 q := ⟨q1, q2, q3, q4⟩
      rcases lt_trichotomy m 0 with hm | hm | hm
      · have hz := (sxl hm).2
        have hqc : q.x = x0 := by rw [hq]; exact hz
        have hcl := fun k => (hc sx 0 k sx0.le hs1.le).1 (by rw [← hq, hqc]; push_cast; ring)
        have c0 := hcl 0
        have c1 := hcl 1
        rw [← hq] at c0 c1
        push_cast at c0 c1
        rw [abs_of_nonneg (by linarith)] at c0
        rw [abs_of_nonpos (by linarith)] at c1
        have hfq : ∀ k', k' ≠ 3 → Far x0 x1 y0 y1 k' q := by
          intro k' hk'
          refine ⟨?_, ?_, ?_, ?_⟩ <;> intro e <;> first | exact absurd e hk' | linarith
        have himg : rimg (wl x0 x1 y0 y1 3).1 (wl x0 x1 y0 y1 3).2 (roomImage x0 x1 y0 y1 r (m, m')) = roomImage x0 x1 y0 y1 r (-1 - m, m') := by
          show rimg ⟨x0, _⟩ ⟨x0, _⟩ _ = _
          rw [rimg_vertical hy.ne']; simp only [roomImage]; rw [cell_lo]
        have hclear : KeepsClear x0 x1 y0 y1 q (roomImage x0 x1 y0 y1 r (-1 - m, m')) := by
          have := keepsClear_flipx (keepsClear_tail hc sx0.le hs1.le) 0
          rw [← hq] at this
          convert this using 1
          · ext <;> push_cast <;> linarith
          · simp only [roomImage]; rw [← cell_lo]; ext <;> push_cast <;> ring
        have ha : |-1 - m| + 1 = |m| := by rw [abs_of_nonneg (by omega), abs_of_neg hm]; ring
        obtain ⟨c, qs, h⟩ := ih (-1 - m) (m') (some 3) q (by push_cast at hn; omega) hqin (fun k hk => hfq k fun e => hk (by rw [e]))
          (by refine ⟨fun e => ?_, fun e => ?_, fun e => ?_, fun e => ?_⟩ <;> first | (simp at e; done) | omega) hclear
        · refine ⟨_, _, pathTo_cons (by norm_num) ?_ sx0 hs1 hq ?_ hqin hfq ?_ (n3 hm) himg (by omega) h⟩
          · simp [wl, roomWalls, hy.ne']
          · have hd : 0 < (y1 - y0) := by linarith
            refine ⟨(y1 - q.y) / (y1 - y0), div_nonneg (by linarith) hd.le, by rw [div_le_one hd]; linarith, ?_⟩
            have e : (y1 - q.y) / (y1 - y0) * (y1 - y0) = y1 - q.y := div_mul_cancel₀ _ hd.ne'
            ext
            · simp only [wl, roomWalls, pointAt, List.getD_cons_zero, List.getD_cons_succ]; linarith
            · simp only [wl, roomWalls, pointAt, List.getD_cons_zero, List.getD_cons_succ]; linarith
          · simp only [wl, roomWalls, side, List.getD_cons_zero, List.getD_cons_succ]
            have hd : 0 < (y1 - y0) := by linarith
            have hf := f3 (n3 hm)
            have := mul_pos hd (show 0 < p.x - x0 by linarith)
            intro e
            nlinarith
      · exact absurd (sxz hm) hs1.ne
      · have hz := (sxh hm).2
        have hqc : q.x = x1 := by rw [hq]; exact hz
        have hcl := fun k => (hc sx 1 k sx0.le hs1.le).1 (by rw [← hq, hqc]; push_cast; ring)
        have c0 := hcl 0
        have c1 := hcl 1
        rw [← hq] at c0 c1
        push_cast at c0 c1
        rw [abs_of_nonneg (by linarith)] at c0
        rw [abs_of_nonpos (by linarith)] at c1
        have hfq : ∀ k', k' ≠ 1 → Far x0 x1 y0 y1 k' q := by
          intro k' hk'
          refine ⟨?_, ?_, ?_, ?_⟩ <;> intro e <;> first | exact absurd e hk' | linarith
        have himg : rimg (wl x0 x1 y0 y1 1).1 (wl x0 x1 y0 y1 1).2 (roomImage x0 x1 y0 y1 r (m, m')) = roomImage x0 x1 y0 y1 r (1 - m, m') := by
          show rimg ⟨x1, _⟩ ⟨x1, _⟩ _ = _
          rw [rimg_vertical hy.ne]; simp only [roomImage]; rw [cell_hi]
        have hclear : KeepsClear x0 x1 y0 y1 q (roomImage x0 x1 y0 y1 r (1 - m, m')) := by
          have := keepsClear_flipx (keepsClear_tail hc sx0.le hs1.le) 1
          rw [← hq] at this
          convert this using 1
          · ext <;> push_cast <;> linarith
          · simp only [roomImage]; rw [← cell_hi]; ext <;> push_cast <;> ring
        have ha : |1 - m| + 1 = |m| := by rw [abs_of_nonpos (by omega), abs_of_pos hm]; ring
        obtain ⟨c, qs, h⟩ := ih (1 - m) (m') (some 1) q (by push_cast at hn; omega) hqin (fun k hk => hfq k fun e => hk (by rw [e]))
          (by refine ⟨fun e => ?_, fun e => ?_, fun e => ?_, fun e => ?_⟩ <;> first | (simp at e; done) | omega) hclear
        · refine ⟨_, _, pathTo_cons (by norm_num) ?_ sx0 hs1 hq ?_ hqin hfq ?_ (n1 hm) himg (by omega) h⟩
          · simp [wl, roomWalls, hy.ne]
          · have hd : 0 < (y1 - y0) := by linarith
            refine ⟨(q.y - y0) / (y1 - y0), div_nonneg (by linarith) hd.le, by rw [div_le_one hd]; linarith, ?_⟩
            have e : (q.y - y0) / (y1 - y0) * (y1 - y0) = q.y - y0 := div_mul_cancel₀ _ hd.ne'
            ext
            · simp only [wl, roomWalls, pointAt, List.getD_cons_zero, List.getD_cons_succ]; linarith
            · simp only [wl, roomWalls, pointAt, List.getD_cons_zero, List.getD_cons_succ]; linarith
          · simp only [wl, roomWalls, side, List.getD_cons_zero, List.getD_cons_succ]
            have hd : 0 < (y1 - y0) := by linarith
            have hf := f1 (n1 hm)
            have := mul_pos hd (show 0 < x1 - p.x by linarith)
            intro e
            nlinarith
    · have hs1 : sy < 1 := by
        rcases lt_trichotomy m' 0 with h | h | h
        · exact (syl h).1
        · exfalso
          have hz := syz h
          rcases lt_trichotomy m 0 with h' | h' | h'
          · linarith [(sxl h').1]
          · rw [h, h'] at hn; simp at hn; omega
          · linarith [(sxh h').1]
        · exact (syh h).1
      obtain ⟨q, hq⟩ : ∃ q, q = pointAt p (roomImage x0 x1 y0 y1 r (m, m')) sy := ⟨_, rfl⟩
      have hqx := sxin sy sy0.le hs
      have hqy := syin sy sy0.le le_rfl
      have hqin : WithinRoom x0 x1 y0 y1 q := by rw [hq]; exact ⟨hqx.1, hqx.2, hqy.1, hqy.2⟩
      obtain ⟨q1, q2, q3, q4⟩ := hqin
      have hqin : WithinRoom x0 x1 y0 y1 q := ⟨q1, q2, q3, q4⟩
      rcases lt_trichotomy m' 0 with hm | hm | hm
      · have hz := (syl hm).2
        have hqc : q.y = y0 := by rw [hq]; exact hz
        have hcl := fun j => (hc sy j 0 sy0.le hs1.le).2 (by rw [← hq, hqc]; push_cast; ring)
        have c0 := hcl 0
        have c1 := hcl 1
        rw [← hq] at c0 c1
        push_cast at c0 c1
        rw [abs_of_nonneg (by linarith)] at c0
        rw [abs_of_nonpos (by linarith)] at c1
        have hfq : ∀ k', k' ≠ 0 → Far x0 x1 y0 y1 k' q := by
          intro k' hk'
          refine ⟨?_, ?_, ?_, ?_⟩ <;> intro e <;> first | exact absurd e hk' | linarith
        have himg : rimg (wl x0 x1 y0 y1 0).1 (wl x0 x1 y0 y1 0).2 (roomImage x0 x1 y0 y1 r (m, m')) = roomImage x0 x1 y0 y1 r (m, -1 - m') := by
          show rimg ⟨_, y0⟩ ⟨_, y0⟩ _ = _
          rw [rimg_horizontal hx.ne]; simp only [roomImage]; rw [cell_lo]
        have hclear : KeepsClear x0 x1 y0 y1 q (roomImage x0 x1 y0 y1 r (m, -1 - m')) := by
          have := keepsClear_flipy (keepsClear_tail hc sy0.le hs1.le) 0
          rw [← hq] at this
          convert this using 1
          · ext <;> push_cast <;> linarith
          · simp only [roomImage]; rw [← cell_lo]; ext <;> push_cast <;> ring
        have ha : |-1 - m'| + 1 = |m'| := by rw [abs_of_nonneg (by omega), abs_of_neg hm]; ring
        obtain ⟨c, qs, h⟩ := ih (m) (-1 - m') (some 0) q (by push_cast at hn; omega) hqin (fun k hk => hfq k fun e => hk (by rw [e]))
          (by refine ⟨fun e => ?_, fun e => ?_, fun e => ?_, fun e => ?_⟩ <;> first | (simp at e; done) | omega) hclear
        · refine ⟨_, _, pathTo_cons (by norm_num) ?_ sy0 hs1 hq ?_ hqin hfq ?_ (n0 hm) himg (by omega) h⟩
          · simp [wl, roomWalls, hx.ne]
          · have hd : 0 < (x1 - x0) := by linarith
            refine ⟨(q.x - x0) / (x1 - x0), div_nonneg (by linarith) hd.le, by rw [div_le_one hd]; linarith, ?_⟩
            have e : (q.x - x0) / (x1 - x0) * (x1 - x0) = q.x - x0 := div_mul_cancel₀ _ hd.ne'
            ext
            · simp only [wl, roomWalls, pointAt, List.getD_cons_zero, List.getD_cons_succ]; linarith
            · simp only [wl, roomWalls, pointAt, List.getD_cons_zero, List.getD_cons_succ]; linarith
          · simp only [wl, roomWalls, side, List.getD_cons_zero, List.getD_cons_succ]
            have hd : 0 < (x1 - x0) := by linarith
            have hf := f0 (n0 hm)
            have := mul_pos hd (show 0 < p.y - y0 by linarith)
            intro e
            nlinarith
      · exact absurd (syz hm) hs1.ne
      · have hz := (syh hm).2
        have hqc : q.y = y1 := by rw [hq]; exact hz
        have hcl := fun j => (hc sy j 1 sy0.le hs1.le).2 (by rw [← hq, hqc]; push_cast; ring)
        have c0 := hcl 0
        have c1 := hcl 1
        rw [← hq] at c0 c1
        push_cast at c0 c1
        rw [abs_of_nonneg (by linarith)] at c0
        rw [abs_of_nonpos (by linarith)] at c1
        have hfq : ∀ k', k' ≠ 2 → Far x0 x1 y0 y1 k' q := by
          intro k' hk'
          refine ⟨?_, ?_, ?_, ?_⟩ <;> intro e <;> first | exact absurd e hk' | linarith
        have himg : rimg (wl x0 x1 y0 y1 2).1 (wl x0 x1 y0 y1 2).2 (roomImage x0 x1 y0 y1 r (m, m')) = roomImage x0 x1 y0 y1 r (m, 1 - m') := by
          show rimg ⟨_, y1⟩ ⟨_, y1⟩ _ = _
          rw [rimg_horizontal hx.ne']; simp only [roomImage]; rw [cell_hi]
        have hclear : KeepsClear x0 x1 y0 y1 q (roomImage x0 x1 y0 y1 r (m, 1 - m')) := by
          have := keepsClear_flipy (keepsClear_tail hc sy0.le hs1.le) 1
          rw [← hq] at this
          convert this using 1
          · ext <;> push_cast <;> linarith
          · simp only [roomImage]; rw [← cell_hi]; ext <;> push_cast <;> ring
        have ha : |1 - m'| + 1 = |m'| := by rw [abs_of_nonpos (by omega), abs_of_pos hm]; ring
        obtain ⟨c, qs, h⟩ := ih (m) (1 - m') (some 2) q (by push_cast at hn; omega) hqin (fun k hk => hfq k fun e => hk (by rw [e]))
          (by refine ⟨fun e => ?_, fun e => ?_, fun e => ?_, fun e => ?_⟩ <;> first | (simp at e; done) | omega) hclear
        · refine ⟨_, _, pathTo_cons (by norm_num) ?_ sy0 hs1 hq ?_ hqin hfq ?_ (n2 hm) himg (by omega) h⟩
          · simp [wl, roomWalls, hx.ne']
          · have hd : 0 < (x1 - x0) := by linarith
            refine ⟨(x1 - q.x) / (x1 - x0), div_nonneg (by linarith) hd.le, by rw [div_le_one hd]; linarith, ?_⟩
            have e : (x1 - q.x) / (x1 - x0) * (x1 - x0) = x1 - q.x := div_mul_cancel₀ _ hd.ne'
            ext
            · simp only [wl, roomWalls, pointAt, List.getD_cons_zero, List.getD_cons_succ]; linarith
            · simp only [wl, roomWalls, pointAt, List.getD_cons_zero, List.getD_cons_succ]; linarith
          · simp only [wl, roomWalls, side, List.getD_cons_zero, List.getD_cons_succ]
            have hd : 0 < (x1 - x0) := by linarith
            have hf := f2 (n2 hm)
            have := mul_pos hd (show 0 < y1 - p.y by linarith)
            intro e
            nlinarith

end

end DiffeRT2d
