import Verif.Lemmas.GradScene
import Verif.Props.ImagePath

/-! How NaN cotangents travel through the differentiated program. -/

namespace DiffeRT2d
open Classical Spec

variable {ι : Type} {i : ι}

/-- Whatever the cotangent, the input `i` receives NaN. -/
def Nans (i : ι) (r : Rev ι) : Prop := ∀ c, r.pull c i = F.nan

/-- A NaN cotangent is passed on to the input `i`. -/
def Passes (i : ι) (r : Rev ι) : Prop := r.pull F.nan i = F.nan

/-- The same for one coordinate of a point, at least. -/
def PassesPt (i : ι) (p : V2 (Rev ι)) : Prop := Passes i p.x ∨ Passes i p.y

namespace Nans
variable {a b : Rev ι}

theorem passes (h : Nans i a) : Passes i a := h _
theorem add_left (h : Nans i a) : Nans i (a + b) := fun c => by
  show a.pull c i + b.pull c i = _; rw [h]; simp
theorem add_right (h : Nans i b) : Nans i (a + b) := fun c => by
  show a.pull c i + b.pull c i = _; rw [h]; simp
theorem sub_left (h : Nans i a) : Nans i (a - b) := fun c => by
  show a.pull c i + b.pull (-c) i = _; rw [h]; simp
theorem sub_right (h : Nans i b) : Nans i (a - b) := fun c => by
  show a.pull c i + b.pull (-c) i = _; rw [h]; simp
theorem mul_left (h : Nans i a) : Nans i (a * b) := fun c => by
  show a.pull _ i + b.pull _ i = _; rw [h]; simp
theorem mul_right (h : Nans i b) : Nans i (a * b) := fun c => by
  show a.pull _ i + b.pull _ i = _; rw [h]; simp
theorem div_right (h : Nans i b) : Nans i (a / b) := fun c => by
  show a.pull _ i + b.pull _ i = _; rw [h]; simp
theorem sqrt (h : Nans i a) : Nans i a.sqrt := fun c => h _
theorem norm {v : V2 (Rev ι)} (h : Nans i v.x ∨ Nans i v.y) : Nans i (Rev.norm v) := by
  rcases h with h | h
  · exact (h.mul_left.add_left).sqrt
  · exact (h.mul_left.add_right).sqrt

theorem foldl {l : List (Rev ι)} : ∀ {z : Rev ι}, (Nans i z ∨ ∃ a ∈ l, Nans i a) → Nans i (l.foldl (· + ·) z) := by
  induction l with
  | nil => intro z h; simpa using h
  | cons a l ih =>
    intro z h
    apply ih
    rcases h with h | ⟨b, hb, h⟩
    · exact .inl h.add_left
    · rcases List.mem_cons.mp hb with rfl | hb
      · exact .inl h.add_right
      · exact .inr ⟨b, hb, h⟩

end Nans

namespace Passes
variable {a b : Rev ι}
theorem add_left (h : Passes i a) : Passes i (a + b) := by
  show a.pull _ i + b.pull _ i = _; rw [h]; simp
theorem add_right (h : Passes i b) : Passes i (a + b) := by
  show a.pull _ i + b.pull _ i = _; rw [h]; simp
theorem sub_left (h : Passes i a) : Passes i (a - b) := by
  show a.pull _ i + b.pull _ i = _; rw [h]; simp
theorem sub_right (h : Passes i b) : Passes i (a - b) := by
  show a.pull _ i + b.pull (-F.nan) i = _; rw [F.neg_nan, h]; simp
theorem mul_left (h : Passes i a) : Passes i (a * b) := by
  show a.pull (F.nan * _) i + b.pull _ i = _; rw [F.nan_mul, h]; simp
theorem mul_right (h : Passes i b) : Passes i (a * b) := by
  show a.pull _ i + b.pull (F.nan * a.val) i = _; rw [F.nan_mul a.val, h]; simp
theorem div_left (h : Passes i a) : Passes i (a / b) := by
  show a.pull (F.nan / _) i + b.pull _ i = _; rw [F.nan_div, h]; simp
theorem div_right (h : Passes i b) : Passes i (a / b) := by
  show a.pull _ i + b.pull (-(F.nan * _ * _)) i = _; rw [F.nan_mul, F.nan_mul, F.neg_nan, h]; simp
theorem where_false (h : Passes i b) : Passes i (Rev.where_ false a b) := by
  show a.pull _ i + b.pull (F.where_ false 0 F.nan) i = _
  simp only [F.where_, Bool.false_eq_true, if_false]
  rw [h]; simp
/-- A quotient by zero sends NaN back. -/
theorem div_zero (hb : b.val = F.fin 0) (h : Passes i a ∨ Passes i b) : (a / b).pull 0 i = F.nan := by
  show a.pull (0 / b.val) i + b.pull (-(0 * (1 / (b.val * b.val)) * a.val)) i = _
  have e1 : (0 : F) / F.fin 0 = F.nan := by rw [F.zero_eq]; show F.div _ _ = _; simp [F.div]
  have e2 : (1 : F) / (F.fin 0 * F.fin 0) = F.pinf := by
    rw [F.fin_mul, F.one_eq]; show F.div _ _ = _; simp [F.div]
  have e3 : (0 : F) * F.pinf = F.nan := by rw [F.zero_eq]; show F.mul _ _ = _; simp [F.mul]
  rw [hb, e1, e2, e3, F.nan_mul, F.neg_nan]
  rcases h with h | h
  · rw [h]; simp
  · rw [h]; simp
end Passes

namespace PassesPt
variable {a b : V2 (Rev ι)}

theorem add_left (h : PassesPt i a) : PassesPt i (a + b) := h.imp .add_left .add_left
theorem sub_left (h : PassesPt i a) : PassesPt i (a - b) := h.imp .sub_left .sub_left
theorem sub_right (h : PassesPt i b) : PassesPt i (a - b) := h.imp .sub_right .sub_right
theorem dot_left (h : PassesPt i a) : Passes i (V2.dot a b) := by
  rcases h with h | h
  · exact h.mul_left.add_left
  · exact h.mul_left.add_right

theorem imageOf {w : Rev.RWall ι} (h : PassesPt i a) : PassesPt i (w.imageOf a) := h.imp .sub_left .sub_left

/-- If the wall is parallel to the step, every coordinate of the point receives NaN. -/
theorem backStep_guard {w : Rev.RWall ι} {im pt : V2 (Rev ι)} (h : PassesPt i im ∨ PassesPt i pt)
    (hu : (V2.dot (pt - im) w.normal).val = F.fin 0) : Nans i (Rev.backStep w im pt).x ∧ Nans i (Rev.backStep w im pt).y := by
  have hd : Passes i (V2.dot (pt - im) w.normal) := by
    rcases h with h | h
    · exact h.sub_right.dot_left
    · exact h.sub_left.dot_left
  have hz : F.eq (V2.dot (pt - im) w.normal).val 0 = true := by rw [hu]; simp
  simp only [Rev.backStep, hz]
  constructor
  · refine Nans.add_right fun c => ?_
    show (Rev.const 0).pull _ i + (_ / _ : Rev ι).pull (F.where_ true 0 c) i = _
    simp only [F.where_, if_true]
    rw [Passes.div_zero hu (.inr hd)]; simp
  · refine Nans.add_right fun c => ?_
    show (Rev.const 0).pull _ i + (_ / _ : Rev ι).pull (F.where_ true 0 c) i = _
    simp only [F.where_, if_true]
    rw [Passes.div_zero hu (.inr hd)]; simp

theorem backStep {w : Rev.RWall ι} {im pt : V2 (Rev ι)} (h : PassesPt i im ∨ PassesPt i pt) : PassesPt i (Rev.backStep w im pt) := by
  by_cases hz : F.eq (V2.dot (pt - im) w.normal).val 0 = true
  · have hu : (V2.dot (pt - im) w.normal).val = F.fin 0 := by
      revert hz; generalize (V2.dot (pt - im) w.normal).val = x; intro hz
      rw [F.zero_eq] at hz
      cases x <;> simp [F.eq] at hz ⊢ <;> exact hz
    exact .inl (backStep_guard h hu).1.passes
  · have hz' : F.eq (V2.dot (pt - im) w.normal).val 0 = false := by simpa using hz
    have hd : Passes i (V2.dot (pt - im) w.normal) := by
      rcases h with h | h
      · exact h.sub_right.dot_left
      · exact h.sub_left.dot_left
    left
    simp only [Rev.backStep, hz']
    exact Passes.add_right hd.div_right.where_false

end PassesPt

theorem dpts_passes {img rx : V2 (Rev ι)} (ws : List (Rev.RWall ι)) (h : PassesPt i img ∨ PassesPt i rx) : ∀ p ∈ dpts img rx ws, PassesPt i p := by
  induction ws generalizing img with
  | nil => intro p hp; simp [dpts] at hp
  | cons w ws ih =>
    have h' : PassesPt i (w.imageOf img) ∨ PassesPt i rx := h.imp_left .imageOf
    intro p hp
    simp only [dpts, List.mem_cons] at hp
    rcases hp with rfl | hp
    · refine PassesPt.backStep ?_
      rcases h' with h' | h'
      · exact .inl h'
      · right
        cases hd : dpts (w.imageOf img) rx ws with
        | nil => exact h'
        | cons q qs => exact ih (.inr h') q (by rw [hd]; simp)
    · exact ih h' p hp

/-- The differentiated wall has the ends of `v`. -/
def ValWall (w : Rev.RWall ι) (v : Pt × Pt) : Prop := w.val = Wall.ofPts v.1 v.2

theorem dpts_val {img rx : V2 (Rev ι)} {ws : List (Rev.RWall ι)} {vs : List (Pt × Pt)} {p q : Pt} (hp : Rev.valV img = V2.fin p) (hq : Rev.valV rx = V2.fin q)
    (hv : List.Forall₂ ValWall ws vs) : (dpts img rx ws).map Rev.valV = (rpts p q vs).map V2.fin := by
  induction hv generalizing img p with
  | nil => rfl
  | @cons w v ws vs hwv hvs ih =>
    have him : Rev.valV (w.imageOf img) = V2.fin (rimg v.1 v.2 p) := by
      rw [Rev.val_imageOf, hwv, hp, imageOf_fin]
    simp only [dpts, rpts, List.map_cons, Rev.val_backStep, Rev.val_headD, ih him, hq, him]
    rw [headD_map, hwv, backStep_fin]

/-- The step that the guard replaces sends NaN to every input that passes. -/
theorem dpts_guard {img rx : V2 (Rev ι)} {ws : List (Rev.RWall ι)} {vs : List (Pt × Pt)} {p q : Pt} (hp : Rev.valV img = V2.fin p) (hq : Rev.valV rx = V2.fin q)
    (hv : List.Forall₂ ValWall ws vs) (h : PassesPt i img ∨ PassesPt i rx) (hu : ¬ Unguarded p q vs) :
    ∃ a ∈ dpts img rx ws, Nans i a.x ∧ Nans i a.y := by
  induction hv generalizing img p with
  | nil => exact absurd trivial hu
  | @cons w v ws vs hwv hvs ih =>
    have h' : PassesPt i (w.imageOf img) ∨ PassesPt i rx := h.imp_left .imageOf
    have him : Rev.valV (w.imageOf img) = V2.fin (rimg v.1 v.2 p) := by
      rw [Rev.val_imageOf, hwv, hp, imageOf_fin]
    by_cases hrest : Unguarded (rimg v.1 v.2 p) q vs
    · have h0 : un v.1 v.2 (rimg v.1 v.2 p) ((rpts (rimg v.1 v.2 p) q vs).headD q) = 0 := by
        by_contra h0; exact hu ⟨h0, hrest⟩
      refine ⟨_, List.mem_cons_self, PassesPt.backStep_guard ?_ ?_⟩
      · rcases h' with h' | h'
        · exact .inl h'
        · right
          cases hd : dpts (w.imageOf img) rx ws with
          | nil => exact h'
          | cons a as => exact dpts_passes ws (.inr h') a (by rw [hd]; simp)
      · have e1 : Rev.valV ((dpts (w.imageOf img) rx ws).headD rx) = V2.fin ((rpts (rimg v.1 v.2 p) q vs).headD q) := by
          rw [Rev.val_headD, dpts_val him hq hvs, hq, headD_map]
        have e2 : (V2.dot ((dpts (w.imageOf img) rx ws).headD rx - w.imageOf img) w.normal).val =
            V2.dot (Rev.valV ((dpts (w.imageOf img) rx ws).headD rx) - Rev.valV (w.imageOf img)) w.val.normal := rfl
        rw [e2, e1, him, hwv, normal_fin, V2.fin_sub, V2.fin_dot']
        exact congrArg F.fin h0
    · obtain ⟨a, ha, hn⟩ := ih him h' hrest
      exact ⟨a, List.mem_cons_of_mem _ ha, hn⟩

/-! ### Length and power -/

theorem diffs_mem {ps : List (V2 (Rev ι))} {k : ℕ} {a b : V2 (Rev ι)} (ha : ps[k]? = some a) (hb : ps[k + 1]? = some b) : b - a ∈ Rev.diffs ps := by
  induction k generalizing ps with
  | zero =>
    match ps, ha, hb with
    | p :: q :: ps, ha, hb =>
      simp only [List.getElem?_cons_zero, Option.some.injEq, zero_add, List.getElem?_cons_succ] at ha hb
      subst ha hb
      simp [Rev.diffs]
  | succ k ih =>
    match ps, ha, hb with
    | p :: q :: ps, ha, hb =>
      simp only [Rev.diffs]
      exact List.mem_cons_of_mem _ (ih (by simpa using ha) (by simpa using hb))

theorem pathLength_nans (E : Env) {ps : List (V2 (Rev ι))} {v : V2 (Rev ι)} (hv : v ∈ Rev.diffs ps)
    (h : Nans i (Rev.norm (v + Rev.constV ⟨F.fin E.eps, F.fin E.eps⟩))) : Nans i (Rev.pathLength E ps) :=
  Nans.foldl (.inr ⟨_, List.mem_map.mpr ⟨v, hv, rfl⟩, h⟩)

/-- A point that sends NaN back makes the length do so. -/
theorem pathLength_point (E : Env) {ps : List (V2 (Rev ι))} (h2 : 2 ≤ ps.length) {a : V2 (Rev ι)} (ha : a ∈ ps) (h : Nans i a.x ∧ Nans i a.y) :
    Nans i (Rev.pathLength E ps) := by
  obtain ⟨k, hk, rfl⟩ := List.getElem_of_mem ha
  by_cases hk' : k + 1 < ps.length
  · exact pathLength_nans E (diffs_mem (List.getElem?_eq_getElem hk) (List.getElem?_eq_getElem hk')) (.norm (.inl (h.1.sub_right.add_left)))
  · obtain ⟨j, rfl⟩ : ∃ j, k = j + 1 := ⟨k - 1, by omega⟩
    exact pathLength_nans E (diffs_mem (List.getElem?_eq_getElem (by omega)) (List.getElem?_eq_getElem hk)) (.norm (.inl (h.1.sub_left.add_left)))

theorem norm_zero {v : V2 (Rev ι)} (hv : Rev.valV v = V2.fin ⟨0, 0⟩) (h : PassesPt i v) : Nans i (Rev.norm v) := by
  intro c
  have hx : v.x.val = F.fin 0 := congrArg V2.x hv
  have hy : v.y.val = F.fin 0 := congrArg V2.y hv
  have e0 : (v.x * v.x + v.y * v.y).val = F.fin 0 := by simp [hx, hy]
  have e1 : (0.5 : F) / F.sqrt (F.fin 0) = F.pinf := by
    rw [F.sqrt_fin le_rfl, Real.sqrt_zero, F.ofScientific_eq]
    show F.div _ _ = _
    simp only [F.div, if_true]
    norm_num
  have e2 : ∀ c : F, c * F.pinf * F.fin 0 = F.nan := by
    intro c
    rcases c with _ | _ | _ | x
    · rfl
    · show F.mul (F.mul _ _) _ = _; simp [F.mul]
    · show F.mul (F.mul _ _) _ = _; simp [F.mul]
    · show F.mul (F.mul _ _) _ = _
      by_cases h0 : x = 0
      · simp [F.mul, h0]
      · by_cases h1 : 0 < x <;> simp [F.mul, h0, h1]
  show (v.x * v.x + v.y * v.y).pull (c * (0.5 / F.sqrt (v.x * v.x + v.y * v.y).val)) i = _
  rw [e0, e1]
  show (v.x.pull (c * F.pinf * v.x.val) i + v.x.pull (c * F.pinf * v.x.val) i) + (v.y.pull (c * F.pinf * v.y.val) i + v.y.pull (c * F.pinf * v.y.val) i) = _
  rw [hx, hy, e2]
  rcases h with h | h <;> rw [h] <;> simp

/-- A step opposite to the guard makes the length send NaN back. -/
theorem pathLength_step (E : Env) {ps : List (V2 (Rev ι))} {k : ℕ} {a b : V2 (Rev ι)} (ha : ps[k]? = some a) (hb : ps[k + 1]? = some b) {p q : Pt}
    (hp : Rev.valV a = V2.fin p) (hq : Rev.valV b = V2.fin q) (hg : q = ⟨p.x - E.eps, p.y - E.eps⟩) (h : PassesPt i a ∨ PassesPt i b) :
    Nans i (Rev.pathLength E ps) := by
  refine pathLength_nans E (diffs_mem ha hb) (norm_zero ?_ ?_)
  · have e : Rev.valV (b - a + Rev.constV ⟨F.fin E.eps, F.fin E.eps⟩) = Rev.valV b - Rev.valV a + ⟨F.fin E.eps, F.fin E.eps⟩ := rfl
    rw [e, hp, hq, hg]
    ext <;> simp
  · rcases h with h | h
    · exact h.sub_right.add_left
    · exact h.sub_left.add_left

theorem power_nans (E : Env) (c h : F) {ps : List (V2 (Rev ι))} (hn : Nans i (Rev.pathLength E ps)) : Nans i (Rev.receivedPower E c h ps) :=
  Nans.div_right (Nans.add_right hn.mul_left)

/-- Where the path is undetermined, or a step is the opposite of the guard of `path_length`, the received power sends NaN back to every
input that the transmitter, or the receiver, passes to. -/
theorem imagePath_nans (E : Env) (c h : F) {tx rx : V2 (Rev ι)} {ws : List (Rev.RWall ι)} {vs : List (Pt × Pt)} {p q : Pt}
    (hp : Rev.valV tx = V2.fin p) (hq : Rev.valV rx = V2.fin q) (hv : List.Forall₂ ValWall ws vs) (hi : PassesPt i tx ∨ PassesPt i rx)
    (hbad : ¬ (Unguarded p q vs ∧ OffGuard E.eps (rpath p q vs))) : Nans i (Rev.receivedPower E c h (Rev.imagePath tx ws rx).xys) := by
  apply power_nans
  rw [imagePath_xys]
  by_cases hu : Unguarded p q vs
  · have hg : ¬ OffGuard E.eps (rpath p q vs) := fun hg => hbad ⟨hu, hg⟩
    unfold OffGuard at hg
    push Not at hg
    obtain ⟨k, a, b, ha, hb, hab⟩ := hg
    have hval : (tx :: dpts tx rx ws ++ [rx]).map Rev.valV = (rpath p q vs).map V2.fin := by
      simp [rpath, dpts_val hp hq hv, hp, hq]
    have get : ∀ (n : ℕ) (c : Pt), (rpath p q vs)[n]? = some c → ∃ c', (tx :: dpts tx rx ws ++ [rx])[n]? = some c' ∧ Rev.valV c' = V2.fin c := by
      intro n c hc
      have := congrArg (·[n]?) hval
      simp only [List.getElem?_map, hc, Option.map_some] at this
      obtain ⟨c', h1, h2⟩ := Option.map_eq_some_iff.mp this
      exact ⟨c', h1, h2⟩
    obtain ⟨a', ha', hva⟩ := get k a ha
    obtain ⟨b', hb', hvb⟩ := get (k + 1) b hb
    refine pathLength_step E ha' hb' hva hvb hab ?_
    have hd := dpts_passes ws hi
    rcases hi with hi | hi
    · left
      match k, ha', hb' with
      | 0, ha', _ => simp at ha'; exact ha' ▸ hi
      | k + 1, ha', hb' =>
        have hlt : k < (dpts tx rx ws).length := by
          have := (List.getElem?_eq_some_iff.mp hb').1
          simp at this; omega
        simp only [List.cons_append, List.getElem?_cons_succ, List.getElem?_append_left hlt] at ha'
        exact hd _ (List.mem_of_getElem? ha')
    · right
      simp only [List.cons_append, List.getElem?_cons_succ] at hb'
      have := List.mem_of_getElem? hb'
      rcases List.mem_append.mp this with h | h
      · exact hd _ h
      · simp at h; exact h ▸ hi
  · obtain ⟨a, ha, hn⟩ := dpts_guard hp hq hv hi hu
    exact pathLength_point E (by simp) (a := a) (by simp [ha]) hn

/-- One path that sends NaN back is enough. -/
theorem facc_nans (v : Rev.ValidOpts ι) {tx rx : V2 (Rev ι)} {ws : List (Rev.RWall ι)} (f : List (V2 (Rev ι)) → Rev ι) (cs : List (List ℤ))
    (hc : ∀ c ∈ cs, ∀ i ∈ c, 0 ≤ i ∧ i < ws.length) {a d : Rev ι} (hd : Rev.facc v ws f tx rx a cs = .ok d)
    (h : Nans i a ∨ ∃ c ∈ cs, Nans i (f (Rev.imagePath tx (dwallsAt ws c) rx).xys)) : Nans i d := by
  induction cs generalizing a with
  | nil =>
    cases hd
    simpa using h
  | cons c cs ih =>
    simp only [Rev.facc] at hd
    rw [mapM_getObject ws c (hc c (by simp))] at hd
    simp only [Bind.bind, Except.bind] at hd
    cases hvd : (Rev.imagePath tx (dwallsAt ws c) rx).isValid v.E ws c (dwallsAt ws c) v.tol v.patch v.approx v.kw with
    | error err => rw [hvd] at hd; cases hd
    | ok valid =>
      rw [hvd] at hd
      refine ih (fun c hc' => hc c (by simp [hc'])) hd ?_
      rcases h with h | ⟨c', hc', h⟩
      · exact .inl h.add_left
      · rcases List.mem_cons.mp hc' with rfl | hc'
        · exact .inl (Nans.add_right h.mul_right)
        · exact .inr ⟨c', hc', h⟩

end DiffeRT2d
