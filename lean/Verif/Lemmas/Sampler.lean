import Verif.Spec.Sampler
import Verif.Lemmas.Float

/-! # Lemmas about the sampler of the notebook -/

namespace DiffeRT2d
open Classical Spec

/-! ## Sums -/

theorem foldl_perm {α β : Type*} (f : β → α → β) (hf : ∀ z a b, f (f z a) b = f (f z b) a) {l l' : List α} (h : l.Perm l') (z : β) : l.foldl f z = l'.foldl f z := by
  induction h generalizing z with
  | nil => rfl
  | cons a _ ih => exact ih _
  | swap a b l => simp only [List.foldl_cons, hf]
  | trans _ _ h1 h2 => exact (h1 z).trans (h2 z)

theorem F.sum_perm {l l' : List F} (h : l.Perm l') : F.sum l = F.sum l' :=
  foldl_perm _ (fun z a b => by rw [F.add_assoc', F.add_comm' a b, ← F.add_assoc']) h _

theorem vadd_right_comm (z a b : List F) : vadd (vadd z a) b = vadd (vadd z b) a := by
  unfold vadd
  induction z generalizing a b with
  | nil => simp
  | cons x z ih =>
    cases a with
    | nil => cases b <;> simp
    | cons y a =>
      cases b with
      | nil => simp
      | cons w b =>
        simp only [List.zipWith_cons_cons, List.cons.injEq]
        exact ⟨by rw [F.add_assoc', F.add_comm' y w, ← F.add_assoc'], ih a b⟩

theorem sumRows_perm (size : ℕ) {l l' : List (List F)} (h : l.Perm l') : sumRows size l = sumRows size l' :=
  foldl_perm _ vadd_right_comm h _

theorem F.sum_fin (l : List ℝ) : F.sum (l.map F.fin) = F.fin l.sum := by
  have : ∀ (l : List ℝ) (a : ℝ), (l.map F.fin).foldl (· + ·) (F.fin a) = F.fin (a + l.sum) := by
    intro l
    induction l with
    | nil => intro a; simp
    | cons x l ih => intro a; simp [ih, add_assoc]
  simpa [F.sum] using this l 0

theorem allFin_map {l : List F} (h : ∀ x ∈ l, IsFin x) : ∃ r : List ℝ, l = r.map F.fin := by
  induction l with
  | nil => exact ⟨[], rfl⟩
  | cons x l ih =>
    obtain ⟨a, rfl⟩ := h x (by simp)
    obtain ⟨r, hr⟩ := ih fun y hy => h y (by simp [hy])
    exact ⟨a :: r, by rw [hr]; rfl⟩

theorem vadd_fin {a b : List F} {n : ℕ} (ha : a.length = n ∧ ∀ x ∈ a, IsFin x) (hb : b.length = n ∧ ∀ x ∈ b, IsFin x) :
    (vadd a b).length = n ∧ ∀ x ∈ vadd a b, IsFin x := by
  refine ⟨by simp [vadd, ha.1, hb.1], fun x hx => ?_⟩
  unfold vadd at hx
  rw [← List.map_uncurry_zip_eq_zipWith] at hx
  obtain ⟨⟨y, z⟩, hm, rfl⟩ := List.mem_map.mp hx
  obtain ⟨p, rfl⟩ := ha.2 y (List.of_mem_zip hm).1
  obtain ⟨q, rfl⟩ := hb.2 z (List.of_mem_zip hm).2
  exact ⟨p + q, rfl⟩

theorem sumRows_fin {size : ℕ} {l : List (List F)} (h : ∀ r ∈ l, r.length = size ∧ ∀ x ∈ r, IsFin x) :
    (sumRows size l).length = size ∧ ∀ x ∈ sumRows size l, IsFin x := by
  have : ∀ (l : List (List F)) (z : List F), (z.length = size ∧ ∀ x ∈ z, IsFin x) → (∀ r ∈ l, r.length = size ∧ ∀ x ∈ r, IsFin x) →
      (l.foldl vadd z).length = size ∧ ∀ x ∈ l.foldl vadd z, IsFin x := by
    intro l
    induction l with
    | nil => intro z hz _; exact hz
    | cons r l ih => intro z hz hl; exact ih _ (vadd_fin hz (hl r (by simp))) fun r hr => hl r (by simp [hr])
  exact this l _ ⟨by simp, fun x hx => ⟨0, by rw [List.eq_of_mem_replicate hx]; simp⟩⟩ h

/-! ## Normalization -/

theorem meanOf_fin (l : List ℝ) (h : l ≠ []) : meanOf (l.map F.fin) = F.fin (l.sum / l.length) := by
  have : (l.length : ℝ) ≠ 0 := by simpa using h
  rw [meanOf, F.sum_fin, List.length_map, F.fin_div _ this]

theorem stdOf_fin (l : List ℝ) (h : l ≠ []) :
    stdOf (l.map F.fin) = F.fin (Real.sqrt ((l.map fun x => (x - l.sum / l.length) * (x - l.sum / l.length)).sum / l.length)) := by
  have e : (l.map F.fin).map (fun x => (x - meanOf (l.map F.fin)) * (x - meanOf (l.map F.fin))) =
      (l.map fun x => (x - l.sum / l.length) * (x - l.sum / l.length)).map F.fin := by
    rw [meanOf_fin l h]; simp [Function.comp_def]
  unfold stdOf
  rw [e, meanOf_fin _ (by simpa using h), F.sqrt_fin, List.length_map]
  refine div_nonneg (List.sum_nonneg fun x hx => ?_) (by positivity)
  obtain ⟨y, -, rfl⟩ := List.mem_map.mp hx
  exact mul_self_nonneg _

/-- The normalized value of a coordinate. -/
noncomputable def normed (l : List ℝ) (x : ℝ) : ℝ :=
  (x - l.sum / l.length) / (Real.sqrt ((l.map fun x => (x - l.sum / l.length) * (x - l.sum / l.length)).sum / l.length) + 1 / 100000)

theorem normalizeRows_fin (ps : List Pt) (h : ps ≠ []) :
    normalizeRows (ps.map V2.fin) = (ps.map fun p => (⟨normed (ps.map V2.x) p.x, normed (ps.map V2.y) p.y⟩ : Pt)).map V2.fin := by
  have ex : (ps.map V2.fin).map V2.x = (ps.map V2.x).map F.fin := by simp [Function.comp_def]
  have ey : (ps.map V2.fin).map V2.y = (ps.map V2.y).map F.fin := by simp [Function.comp_def]
  have heps : (1e-5 : F) = F.fin (1 / 100000) := by rw [F.ofScientific_eq]; congr 1; norm_num
  have hpos : ∀ l : List ℝ, Real.sqrt ((l.map fun x => (x - l.sum / l.length) * (x - l.sum / l.length)).sum / l.length) + 1 / 100000 ≠ 0 :=
    fun l => by positivity
  have hx : ps.map V2.x ≠ [] := by simpa using h
  have hy : ps.map V2.y ≠ [] := by simpa using h
  have key : normalizeRows (ps.map V2.fin) = (ps.map V2.fin).map fun p =>
      ⟨(p.x - meanOf ((ps.map V2.x).map F.fin)) / (stdOf ((ps.map V2.x).map F.fin) + 1e-5),
        (p.y - meanOf ((ps.map V2.y).map F.fin)) / (stdOf ((ps.map V2.y).map F.fin) + 1e-5)⟩ := by
    rw [← ex, ← ey]; rfl
  rw [key, meanOf_fin _ hx, meanOf_fin _ hy, stdOf_fin _ hx, stdOf_fin _ hy, heps]
  apply List.ext_getElem (by simp)
  intro i h1 h2
  simp only [List.getElem_map]
  simp only [Function.comp, V2.fin, F.fin_add, F.fin_sub, F.fin_div _ (hpos _), normed]

theorem rows4_length (l : List (V2 F)) (n : ℕ) (h : l.length = 2 * n) : (rows4 l).length = n := by
  induction n generalizing l with
  | zero =>
    have : l = [] := List.length_eq_zero_iff.mp (by omega)
    rw [this]; rfl
  | succ n ih =>
    match l, h with
    | a :: b :: l, h => simp only [rows4, List.length_cons]; rw [ih l (by simp at h; omega)]

theorem rows4_fin (l : List Pt) : ∀ r ∈ rows4 (l.map V2.fin), ∀ x ∈ r, IsFin x := by
  match l with
  | [] => simp [rows4]
  | [a] => simp [rows4]
  | a :: b :: l =>
    intro r hr
    simp only [List.map_cons, rows4, List.mem_cons] at hr
    rcases hr with rfl | hr
    · intro x hx
      simp only [List.mem_cons, List.not_mem_nil, or_false, V2.fin] at hx
      rcases hx with rfl | rfl | rfl | rfl <;> exact ⟨_, rfl⟩
    · exact rows4_fin l r hr

/-! ## The flow model -/

/-- The flows before one of them is stopped; they depend on the state only through the walls it names. -/
noncomputable def FlowModel.flows (net : FlowModel) (wallIndices : List ℤ) (xys : List (V2 F)) : List F :=
  let xys := normalizeRows xys
  let txRx := (rows4 (xys.take 2)).headD []
  let walls := rows4 (xys.drop 2)
  let wallsEmbeddings := walls.map net.embed
  let sceneEmbeddings := sumRows net.size wallsEmbeddings
  let stateEmbeddings := sumRows net.size (wallIndices.map (takeFill wallsEmbeddings (List.replicate net.size 0)))
  walls.map fun wall => F.exp (net.raw (txRx ++ stateEmbeddings ++ sceneEmbeddings ++ wall))

theorem call_eq (net : FlowModel) (state : OneHot) (w : ℤ) (xys : List (V2 F)) (hl : xys.length = 2 + state.length * 2) (hn : 0 < state.length) :
    net.call state w xys = .ok (atSet (net.flows (state.nonzeroRows (state.headD []).length state.length) xys) w 0) := by
  have h4 : ¬ xys.length < 4 := by omega
  simp only [FlowModel.call, hl, ne_eq, not_true, if_false, FlowModel.flows]
  rw [if_neg (by omega)]

theorem normalizeRows_length (xys : List (V2 F)) : (normalizeRows xys).length = xys.length := by simp [normalizeRows]

theorem flows_length (net : FlowModel) (rows : List ℤ) (xys : List (V2 F)) (n : ℕ) (hl : xys.length = 2 + n * 2) : (net.flows rows xys).length = n := by
  simp only [FlowModel.flows, List.length_map]
  exact rows4_length _ _ (by simp [normalizeRows_length]; omega)

theorem takeFill_mem {α : Type*} (a : List α) (fill : α) (i : ℤ) : takeFill a fill i ∈ a ∨ takeFill a fill i = fill := by
  simp only [takeFill]
  generalize (if i < 0 then i + (a.length : ℤ) else i) = j
  split_ifs with h
  · right; trivial
  · rw [List.getD_eq_getElem?_getD]
    by_cases hj : j.toNat < a.length
    · left; rw [List.getElem?_eq_getElem hj]; exact List.getElem_mem hj
    · right; rw [List.getElem?_eq_none (by omega)]; rfl

/-- The flows of a network with finite values are positive. -/
theorem flows_pos (net : FlowModel) (hnet : FiniteNet net) (rows : List ℤ) (ps : List Pt) (hne : ps ≠ []) :
    ∃ f : List ℝ, net.flows rows (ps.map V2.fin) = f.map F.fin ∧ ∀ x ∈ f, 0 < x := by
  obtain ⟨qs, hqs⟩ : ∃ qs : List Pt, normalizeRows (ps.map V2.fin) = qs.map V2.fin := ⟨_, normalizeRows_fin ps hne⟩
  have hw : ∀ r ∈ rows4 ((qs.map V2.fin).drop 2), ∀ x ∈ r, IsFin x := by rw [← List.map_drop]; exact rows4_fin _
  have hemb : ∀ r ∈ (rows4 ((qs.map V2.fin).drop 2)).map net.embed, r.length = net.size ∧ ∀ x ∈ r, IsFin x := by
    intro r hr
    obtain ⟨v, hv, rfl⟩ := List.mem_map.mp hr
    exact hnet.embed v (hw v hv)
  have hzero : ∀ x ∈ List.replicate net.size (0 : F), IsFin x := fun x hx => ⟨0, by rw [List.eq_of_mem_replicate hx]; simp⟩
  have hstate : ∀ x ∈ sumRows net.size (rows.map (takeFill ((rows4 ((qs.map V2.fin).drop 2)).map net.embed) (List.replicate net.size 0))), IsFin x := by
    refine (sumRows_fin fun r hr => ?_).2
    obtain ⟨i, -, rfl⟩ := List.mem_map.mp hr
    rcases takeFill_mem ((rows4 ((qs.map V2.fin).drop 2)).map net.embed) (List.replicate net.size 0) i with h | h
    · exact hemb _ h
    · rw [h]; exact ⟨by simp, hzero⟩
  have htx : ∀ x ∈ (rows4 ((qs.map V2.fin).take 2)).headD [], IsFin x := by
    rw [← List.map_take]
    rcases h : rows4 ((qs.take 2).map V2.fin) with _ | ⟨r, rs⟩
    · simp
    · exact rows4_fin _ r (by rw [h]; simp)
  have hall : ∀ x ∈ net.flows rows (ps.map V2.fin), ∃ r : ℝ, x = F.fin r ∧ 0 < r := by
    intro x hx
    simp only [FlowModel.flows, hqs, List.mem_map] at hx
    obtain ⟨wall, hwall, rfl⟩ := hx
    obtain ⟨y, hy⟩ := hnet.raw ((rows4 ((qs.map V2.fin).take 2)).headD [] ++
      sumRows net.size (rows.map (takeFill ((rows4 ((qs.map V2.fin).drop 2)).map net.embed) (List.replicate net.size 0))) ++
      sumRows net.size ((rows4 ((qs.map V2.fin).drop 2)).map net.embed) ++ wall) (by
        intro v hv
        simp only [List.mem_append] at hv
        rcases hv with ((hv | hv) | hv) | hv
        · exact htx v hv
        · exact hstate v hv
        · exact (sumRows_fin hemb).2 v hv
        · exact hw wall hwall v hv)
    exact ⟨Real.exp y, by rw [hy]; rfl, Real.exp_pos y⟩
  obtain ⟨f, hf⟩ := allFin_map fun x hx => let ⟨r, hr, _⟩ := hall x hx; ⟨r, hr⟩
  refine ⟨f, hf, fun x hx => ?_⟩
  obtain ⟨r, hr, h0⟩ := hall (F.fin x) (by rw [hf]; exact List.mem_map.mpr ⟨x, hx, rfl⟩)
  rw [F.fin.inj hr]; exact h0

/-! ## Encodings -/

theorem zeros_encode (n order : ℕ) : OneHot.zeros n order = encode n order [] := by
  simp only [OneHot.zeros, encode, List.getElem?_nil, reduceCtorEq, if_false]
  simp

theorem encode_length (n order : ℕ) (c : List ℕ) : (encode n order c).length = n := by simp [encode]

theorem encode_order (n order : ℕ) (hn : 0 < n) (c : List ℕ) : ((encode n order c).headD []).length = order := by
  obtain ⟨n, rfl⟩ := Nat.exists_eq_succ_of_ne_zero hn.ne'
  simp [encode, List.range_succ_eq_map]

/-- Choosing one more wall. -/
theorem encode_set (n order : ℕ) (c : List ℕ) (w : ℕ) : (encode n order c).set w c.length = encode n order (c ++ [w]) := by
  unfold OneHot.set encode
  apply List.ext_getElem?
  intro i
  rw [List.getElem?_modify]
  by_cases hi : i < n
  · simp only [List.getElem?_map, List.getElem?_range hi, Option.map_some, Option.map_eq_map]
    congr 1
    apply List.ext_getElem?
    intro j
    by_cases hj : j < order
    · by_cases hw : w = i
      · subst hw
        simp only [if_true, List.getElem?_set, List.getElem?_map, List.getElem?_range hj, Option.map_some, List.length_map, List.length_range]
        by_cases hc : c.length = j
        · subst hc; simp [hj]
        · simp only [hc, if_false]
          congr 2
          rw [List.getElem?_append]
          by_cases hl : j < c.length
          · simp [hl]
          · simp only [hl, if_false, List.getElem?_eq_none (show c.length ≤ j by omega)]
            rw [List.getElem?_eq_none (by simp; omega)]
      · simp only [hw, if_false, List.getElem?_map, List.getElem?_range hj, Option.map_some, id]
        congr 2
        rw [List.getElem?_append]
        by_cases hl : j < c.length
        · simp [hl]
        · simp only [hl, if_false, List.getElem?_eq_none (show c.length ≤ j by omega)]
          rcases Nat.eq_zero_or_pos (j - c.length) with h0 | h0
          · simp [h0, hw]
          · rw [List.getElem?_eq_none (by simp; omega)]
    · split_ifs <;> simp [List.getElem?_eq_none, not_lt.mp hj]
  · simp [List.getElem?_eq_none, not_lt.mp hi]

/-- The walls visited, in the order of their indices. -/
def visited (n : ℕ) (c : List ℕ) : List ℕ := (List.range n).flatMap fun i => List.replicate (c.count i) i

theorem visited_perm (n : ℕ) (c : List ℕ) (hc : ∀ i ∈ c, i < n) : (visited n c).Perm c := by
  rw [List.perm_iff_count]
  intro a
  have h : ∀ m : ℕ, ((List.range m).flatMap fun i => List.replicate (c.count i) i).count a = if a < m then c.count a else 0 := by
    intro m
    induction m with
    | zero => simp
    | succ m ih =>
      rw [List.range_succ, List.flatMap_append, List.count_append, ih]
      simp only [List.flatMap_cons, List.flatMap_nil, List.append_nil, List.count_replicate]
      by_cases h1 : a < m
      · have : ¬ m = a := by omega
        simp [h1, this, Nat.lt_succ_of_lt h1]
      · by_cases h2 : m = a
        · subst h2; simp
        · have : ¬ a < m + 1 := by omega
          simp [h1, h2, this]
  rw [visited, h]
  by_cases ha : a < n
  · simp [ha]
  · simp only [ha, if_false]
    exact (List.count_eq_zero_of_not_mem fun hm => ha (hc a hm)).symm

theorem visited_sorted (n : ℕ) (c : List ℕ) : (visited n c).Pairwise (· ≤ ·) := by
  unfold visited
  induction n with
  | zero => simp
  | succ n ih =>
    rw [List.range_succ, List.flatMap_append, List.pairwise_append]
    refine ⟨ih, by simp [List.pairwise_replicate], fun a ha b hb => ?_⟩
    simp only [List.mem_flatMap, List.mem_range, List.mem_replicate, List.mem_singleton] at ha hb
    obtain ⟨i, hi, -, rfl⟩ := ha
    obtain ⟨j, rfl, -, rfl⟩ := hb
    omega

theorem row_count (c : List ℕ) (i : ℕ) : ∀ m, c.length ≤ m → ((List.range m).filter fun j => decide (c[j]? = some i)).length = c.count i := by
  induction c with
  | nil => intro m _; simp
  | cons a c ih =>
    intro m hm
    obtain ⟨m, rfl⟩ : ∃ k, m = k + 1 := ⟨m - 1, by simp at hm; omega⟩
    rw [List.range_succ_eq_map, List.filter_cons, List.filter_map, List.count_cons]
    have := ih m (by simpa using hm)
    simp only [Function.comp_def, List.getElem?_cons_zero, List.getElem?_cons_succ, Option.some.injEq, Nat.succ_eq_add_one] at this ⊢
    by_cases ha : a = i
    · simp [ha, this]
    · simp [ha, this]

/-- What `jnp.nonzero` returns for an encoding: the walls visited in the order of their indices, then the filler. -/
theorem nonzeroRows_encode (n order : ℕ) (c : List ℕ) (hc : ∀ i ∈ c, i < n) (hl : c.length ≤ order) (fill : ℤ) :
    (encode n order c).nonzeroRows order fill = (visited n c).map (fun (i : ℕ) => (i : ℤ)) ++ List.replicate (order - c.length) fill := by
  have hrow : ∀ i : ℕ, (((List.range order).map fun j => if c[j]? = some i then (1 : F) else 0).filter fun x => !F.eq x 0).map (fun _ => (i : ℤ)) =
      List.replicate (c.count i) (i : ℤ) := by
    intro i
    rw [List.filter_map, List.map_map, List.eq_replicate_iff]
    refine ⟨?_, fun b hb => by obtain ⟨_, _, rfl⟩ := List.mem_map.mp hb; rfl⟩
    rw [List.length_map, ← row_count c i order hl]
    congr 1
    refine List.filter_congr fun j _ => ?_
    by_cases h : c[j]? = some i <;> simp [h]
  have hrows : ((encode n order c).zipIdx.flatMap fun (ri : List F × ℕ) => (ri.1.filter fun x => !F.eq x 0).map fun _ => (ri.2 : ℤ)) =
      (visited n c).map fun (i : ℕ) => (i : ℤ) := by
    have hz : (encode n order c).zipIdx = (List.range n).map fun i => ((List.range order).map fun j => if c[j]? = some i then (1 : F) else 0, i) := by
      apply List.ext_getElem?
      intro k
      by_cases hk : k < n
      · simp [encode, List.getElem?_zipIdx, hk]
      · simp [encode, List.getElem?_zipIdx, List.getElem?_eq_none, not_lt.mp hk]
    rw [hz, List.flatMap_map]
    simp only [hrow, visited, List.map_flatMap, List.map_replicate]
  have hlen : (visited n c).length = c.length := (visited_perm n c hc).length_eq
  unfold OneHot.nonzeroRows
  rw [hrows, List.take_append, List.take_of_length_le (by simp [hlen, hl]), List.take_replicate]
  congr 2
  simp [hlen]

end DiffeRT2d
