import Verif.Spec.Trials
import Verif.Props.Descent
import Verif.Props.Optimize

/-! # C121: tracing by gradient descent with several trials -/

namespace DiffeRT2d.Props
open Classical Spec

theorem fnan_add (a : F) : F.nan + a = F.nan := by cases a <;> rfl
theorem fadd_nan (a : F) : a + F.nan = F.nan := by cases a <;> rfl
theorem fsub_nan (a : F) : a - F.nan = F.nan := by cases a <;> rfl
theorem fnan_sub (a : F) : F.nan - a = F.nan := by cases a <;> rfl
theorem fmul_nan (a : F) : a * F.nan = F.nan := by cases a <;> rfl
theorem fnan_mul (a : F) : F.nan * a = F.nan := by cases a <;> rfl
theorem fnan_div (a : F) : F.nan / a = F.nan := by cases a <;> rfl

theorem foldl_add_nan (xs : List F) : xs.foldl (· + ·) F.nan = F.nan := by
  induction xs with
  | nil => rfl
  | cons x xs ih => simpa [fnan_add] using ih

theorem foldl_add_mem {xs : List F} (h : F.nan ∈ xs) (a : F) : xs.foldl (· + ·) a = F.nan := by
  induction xs generalizing a with
  | nil => simp at h
  | cons x xs ih =>
    rcases List.mem_cons.mp h with h | h
    · simp only [List.foldl_cons, ← h, fadd_nan]; exact foldl_add_nan xs
    · exact ih h _

theorem norm_nan : V2.norm V2.nan = F.nan := rfl

theorem sub_nan_left (a : V2 F) : V2.nan - a = V2.nan := by
  show (⟨F.nan - a.x, F.nan - a.y⟩ : V2 F) = _; simp [fnan_sub, V2.nan]

theorem sub_nan_right (a : V2 F) : a - V2.nan = V2.nan := by
  show (⟨a.x - F.nan, a.y - F.nan⟩ : V2 F) = _; simp [fsub_nan, V2.nan]

theorem diffs_nan {l : List (V2 F)} {k : ℕ} (h : l[k + 1]? = some V2.nan) : V2.nan ∈ diffs l := by
  induction k generalizing l with
  | zero =>
    match l, h with
    | a :: b :: l, h =>
      simp at h
      simp [diffs, h, sub_nan_left]
  | succ k ih =>
    match l, h with
    | a :: b :: l, h => exact List.mem_cons_of_mem _ (ih (l := b :: l) (by simpa using h))

theorem length_nan (E : Env) {l : List (V2 F)} {k : ℕ} (h : l[k + 1]? = some V2.nan) : pathLength E l = F.nan := by
  apply foldl_add_mem
  refine List.mem_map.mpr ⟨_, diffs_nan h, ?_⟩
  show F.sqrt ((F.nan + _) * _ + _) = _
  rw [fnan_add, fnan_mul, fnan_add]; rfl

theorem normalize_nan : (normalize V2.nan).1 = V2.nan := by
  show (⟨F.nan / _, F.nan / _⟩ : V2 F) = _
  simp [fnan_div, V2.nan]

theorem pathLoss_of_nan (ints : List Interactable) (l : List (V2 F)) : pathLoss F.nan ints l = F.nan := by
  induction ints generalizing l with
  | nil => rfl
  | cons o os ih =>
    match l with
    | a :: b :: c :: l => simpa [pathLoss, fnan_add] using ih (b :: c :: l)
    | [] => rfl
    | [_] => rfl
    | [_, _] => rfl

theorem dot_nan (v : V2 F) : V2.dot V2.nan v = F.nan := by
  show F.nan * _ + _ = _
  rw [fnan_mul, fnan_add]

theorem cross_nan (v : V2 F) : V2.cross V2.nan v = F.nan := by
  show F.nan * _ - _ = _
  rw [fnan_mul, fnan_sub]

theorem score_nan {s : Shape} (h : s.count = 1) (a c : V2 F) : s.obj.interact.evaluate a V2.nan c = F.nan := by
  cases s with
  | vertex p => simp [Shape.count] at h
  | wall o d =>
    show Wall.evaluate _ a V2.nan c = _
    simp only [Wall.evaluate, sub_nan_right, normalize_nan, sub_nan_left, dot_nan]
  | ris o d φ =>
    show RIS.evaluate _ a V2.nan c = _
    have : -V2.nan = V2.nan := rfl
    simp only [RIS.evaluate, sub_nan_right, normalize_nan, this, cross_nan, fnan_sub, RIS.sq, fnan_mul, fnan_add]

theorem pathLoss_nan (loss : F) {ss : List Shape} {l : List (V2 F)} {k : ℕ} {s : Shape} (hs : ss[k]? = some s) (h1 : s.count = 1)
    (h : l[k + 1]? = some V2.nan) : pathLoss loss ((ss.map Shape.obj).map Obj.interact) l = F.nan := by
  induction ss generalizing l k loss with
  | nil => simp at hs
  | cons s' ss ih =>
    match l with
    | a :: b :: c :: l =>
      simp only [List.map_cons, pathLoss]
      cases k with
      | zero =>
        simp at hs h
        subst hs; subst h
        rw [score_nan h1, fadd_nan, pathLoss_of_nan]
      | succ k => exact ih _ (by simpa using hs) (by simpa using h)
    | [] => rfl
    | [_] => rfl
    | [_, _] => rfl

/-- What several trials return, from the runs of the trials. -/
theorem many_runs {Key : Type} (M : Minimizer Key) (f : List F → F) (key : Key) (n many : ℕ) (hm : 2 ≤ many) (hsp : (M.split key many).length = many)
    (hs : 1 ≤ M.steps) : ∃ (xs : ℕ → ℕ → List F) (sts : ℕ → ℕ → M.optimizer.State) (w : ℕ), w < many ∧
      (∀ i k, (M.split key many)[i]? = some k → Run M f (M.uniform k n) M.steps (xs i) (sts i)) ∧
      minimizeManyRandomUniform M f key n many = .ok (xs w M.steps, f (xs w (M.steps - 1))) ∧
      ((∃ i < many, f (xs i (M.steps - 1)) = F.nan) → f (xs w (M.steps - 1)) = F.nan ∧ ∀ i < w, f (xs i (M.steps - 1)) ≠ F.nan) ∧
      ((∀ i < many, f (xs i (M.steps - 1)) ≠ F.nan) → ∀ i < many, NotLarger (f (xs w (M.steps - 1))) (f (xs i (M.steps - 1))) ∧
        (i < w → Smaller (f (xs w (M.steps - 1))) (f (xs i (M.steps - 1))))) := by
  choose ys st hr hmin using fun x0 => C44_steps M f x0 hs
  have hmin' : ∀ k, minimizeRandomUniform M f k n = .ok (ys (M.uniform k n) M.steps, f (ys (M.uniform k n) (M.steps - 1))) := fun k => hmin _
  have hmap : (M.split key many).mapM (fun k => minimizeRandomUniform M f k n) =
      .ok ((M.split key many).map fun k => (ys (M.uniform k n) M.steps, f (ys (M.uniform k n) (M.steps - 1)))) := by
    apply mapM_inv
    rw [List.forall₂_map_right_iff]
    exact List.forall₂_same.mpr fun k _ => hmin' k
  have hne : M.split key many ≠ [] := by rintro h; rw [h] at hsp; simp at hsp; omega
  obtain ⟨k0, hk0⟩ : ∃ k, k ∈ M.split key many := List.exists_mem_of_ne_nil _ hne
  set ks := M.split key many with hks
  set xs : ℕ → ℕ → List F := fun i => ys (M.uniform (ks.getD i k0) n) with hxs
  have hget : ∀ i < many, ks[i]? = some (ks.getD i k0) := fun i hi => by
    rw [List.getD_eq_getElem?_getD, List.getElem?_eq_getElem (by omega : i < ks.length)]; rfl
  set trials := ks.map fun k => (ys (M.uniform k n) M.steps, f (ys (M.uniform k n) (M.steps - 1))) with htr
  have hti : ∀ i < many, trials[i]? = some (xs i M.steps, f (xs i (M.steps - 1))) := fun i hi => by
    rw [htr, List.getElem?_map, hget i hi]; rfl
  have htl : trials.length = many := by rw [htr, List.length_map, hsp]
  have hT : Trials M f key n many trials := by
    rw [Trials, htr, List.forall₂_map_right_iff]
    exact List.forall₂_same.mpr fun k _ => hmin' k
  refine ⟨xs, fun i => st (M.uniform (ks.getD i k0) n), ?_⟩
  have hruns : ∀ i k, ks[i]? = some k → Run M f (M.uniform k n) M.steps (xs i) (st (M.uniform (ks.getD i k0) n)) := by
    intro i k h
    have : ks.getD i k0 = k := by rw [List.getD_eq_getElem?_getD, h]; rfl
    simp only [hxs, this]
    exact hr _
  by_cases hnan : ∃ i < many, f (xs i (M.steps - 1)) = F.nan
  · obtain ⟨hlt, hw⟩ := Nat.find_spec hnan
    have hmin := fun i (hi : i < Nat.find hnan) => Nat.find_min hnan hi
    set w := Nat.find hnan
    refine ⟨w, hlt, hruns, ?_, fun _ => ⟨hw, fun i hi h => hmin i hi ⟨by omega, h⟩⟩, fun h => absurd hw (h w hlt)⟩
    have hsplit : trials = trials.take w ++ (xs w M.steps, f (xs w (M.steps - 1))) :: trials.drop (w + 1) := by
      have h1 : w < trials.length := by omega
      have := List.take_append_drop w trials
      rw [List.drop_eq_getElem_cons h1] at this
      have e : trials[w] = (xs w M.steps, f (xs w (M.steps - 1))) := by
        have := hti w hlt
        rw [List.getElem?_eq_getElem h1] at this
        exact Option.some.inj this
      rw [e] at this
      exact this.symm
    refine C46_nan_wins M f key n many (by omega) (trials.take w) (trials.drop (w + 1)) _ (hsplit ▸ hT) hw fun t ht h => ?_
    obtain ⟨i, hi, rfl⟩ := List.getElem_of_mem ht
    simp only [List.length_take] at hi
    have hi' : i < w := by omega
    have := hti i (by omega)
    rw [List.getElem?_eq_getElem (by omega)] at this
    rw [List.getElem_take, Option.some.inj this] at h
    exact hmin i hi' ⟨by omega, h⟩
  · push Not at hnan
    obtain ⟨w, best, h1, h2, h3, h4⟩ := C45_best M f key n many (by omega) trials hT (by rintro h; rw [h] at htl; simp at htl; omega) (fun t ht => by
      obtain ⟨i, hi, rfl⟩ := List.getElem_of_mem ht
      have := hti i (by omega)
      rw [List.getElem?_eq_getElem hi] at this
      rw [Option.some.inj this]
      exact hnan i (by omega))
    have hw : w < many := by rw [← htl]; exact (List.getElem?_eq_some_iff.mp h2).1
    rw [hti w hw] at h2
    obtain rfl := Option.some.inj h2
    refine ⟨w, hw, hruns, h1, fun ⟨i, hi, h⟩ => absurd h (hnan i hi), fun _ i hi => ⟨h3 _ (List.mem_of_getElem? (hti i hi)), fun hiw => h4 i hiw _ (hti i hi)⟩⟩

/-- Selection among the trials, from the runs. -/
theorem many_selected {Key : Type} {M : Minimizer Key} {lr : ℝ} (hlr : 0 < lr) (hopt : M.optimizer = adam (F.fin lr)) {f : List F → F} {shapes : List Shape} {tx rx : Pt}
    {key : Key} {many : ℕ} (hm : 2 ≤ many) (hsp : (M.split key many).length = many) (hs : 1 ≤ M.steps)
    {x0 : ℕ → List ℝ} (hx0 : ∀ i k, (M.split key many)[i]? = some k → M.uniform k (shapes.map Shape.count).sum = (x0 i).map F.fin ∧ (x0 i).length = (shapes.map Shape.count).sum)
    (hg : ∀ x, (M.grad f x).length = x.length) {Singular : List ℝ → Prop}
    (hS : ∀ θ : List ℝ, θ.length = (shapes.map Shape.count).sum → Singular θ → ∃ j < (shapes.map Shape.count).sum, (M.grad f (θ.map F.fin))[j]? = some F.nan)
    (hR : ∀ θ : List ℝ, θ.length = (shapes.map Shape.count).sum → ¬ Singular θ → ∀ j < (shapes.map Shape.count).sum, ∃ d : ℝ, (M.grad f (θ.map F.fin))[j]? = some (F.fin d))
    (hfr : ∀ θ : List ℝ, θ.length = (shapes.map Shape.count).sum → ∃ r : ℝ, f (θ.map F.fin) = F.fin r)
    (hfn : ∀ x : List F, x.length = (shapes.map Shape.count).sum → ∀ j : ℕ, x[j]? = some F.nan → f x = F.nan) :
    ∃ (xs : ℕ → ℕ → List F) (sts : ℕ → ℕ → M.optimizer.State) (w : ℕ), Selected Singular f M.steps many xs w ∧
      (∀ i < many, Run M f ((x0 i).map F.fin) M.steps (xs i) (sts i)) ∧
      minimizeManyRandomUniform M f key (shapes.map Shape.count).sum many = .ok (xs w M.steps, f (xs w (M.steps - 1))) ∧
      DescentPath Singular shapes tx rx (x0 w) M.steps (M.steps * (lr * Real.sqrt (370 / 7))) (xs w)
        (parametricToCartesian ((shapes.map Shape.obj).map Obj.interact) (xs w M.steps) (V2.fin tx) (V2.fin rx)) ∧
      (Spoilt Singular M.steps (xs w) → f (xs w (M.steps - 1)) = F.nan) := by
  obtain ⟨xs, sts, w, hw, hruns, hmin, hnan, hbest⟩ := many_runs M f key (shapes.map Shape.count).sum many hm hsp hs
  have hk : ∀ i < many, ∃ k, (M.split key many)[i]? = some k := fun i hi => ⟨_, List.getElem?_eq_getElem (by omega)⟩
  have hl : ∀ i < many, (x0 i).length = (shapes.map Shape.count).sum := fun i hi => by
    obtain ⟨k, hk⟩ := hk i hi; exact (hx0 i k hk).2
  have hrun : ∀ i < many, Run M f ((x0 i).map F.fin) M.steps (xs i) (sts i) := fun i hi => by
    obtain ⟨k, hk⟩ := hk i hi
    rw [← (hx0 i k hk).1]; exact hruns i k hk
  -- the loss of a trial is NaN if the trial is spoilt, and real otherwise
  have hloss : ∀ i < many, (Spoilt Singular M.steps (xs i) → f (xs i (M.steps - 1)) = F.nan) ∧
      (¬ Spoilt Singular M.steps (xs i) → ∃ r : ℝ, f (xs i (M.steps - 1)) = F.fin r) := by
    intro i hi
    have hr := hrun i hi
    have hr' : Run M f ((x0 i).map F.fin) (M.steps - 1) (xs i) (sts i) :=
      ⟨hr.start, hr.init, fun m hm => hr.step m (by omega), fun m hm => hr.state m (by omega)⟩
    have hlen := run_length hopt hr' hg (M.steps - 1) le_rfl
    obtain ⟨d1, d2⟩ := descend hlr hopt hr' hg (Singular := Singular) (fun θ hθ => by rw [hl i hi] at hθ ⊢; exact hS θ hθ) (fun θ hθ => by rw [hl i hi] at hθ ⊢; exact hR θ hθ)
    refine ⟨fun ⟨m, hm, θ, hθ, h⟩ => ?_, fun h => ?_⟩
    · obtain ⟨j, -, hj⟩ := d2 ⟨m, by omega, θ, hθ, h⟩
      exact hfn _ (by rw [hlen, hl i hi]) j hj
    · obtain ⟨θ, hθ, he, -⟩ := d1 fun m hm θ hθ hs => h ⟨m, by omega, θ, hθ, hs⟩
      rw [he]
      exact hfr θ (by rw [hθ, hl i hi])
  have hiff : ∀ i < many, Spoilt Singular M.steps (xs i) ↔ f (xs i (M.steps - 1)) = F.nan := fun i hi =>
    ⟨(hloss i hi).1, fun h => by
      by_contra hc
      obtain ⟨r, hr⟩ := (hloss i hi).2 hc
      rw [h] at hr; exact F.noConfusion hr⟩
  refine ⟨xs, sts, w, ⟨hw, fun ⟨i, hi, h⟩ => ?_, fun h i hi => ?_⟩, hrun, hmin, ?_, (hloss w hw).1⟩
  · obtain ⟨a, b⟩ := hnan ⟨i, hi, (hiff i hi).mp h⟩
    exact ⟨(hiff w hw).mpr a, fun i hi => mt (hiff i (by omega)).mp (b i hi)⟩
  · obtain ⟨a, ha⟩ := (hloss w hw).2 (h w hw)
    obtain ⟨b, hb⟩ := (hloss i hi).2 (h i hi)
    have := hbest (fun i hi => mt (hiff i hi).mpr (h i hi)) i hi
    rw [ha, hb] at this
    exact ⟨a, b, ha, hb, by simpa [NotLarger] using this.1, fun hiw => by simpa [Smaller] using this.2 hiw⟩
  · exact descentPath_of hlr hopt (hl w hw) (hrun w hw) hg (fun θ hθ => by rw [hl w hw] at hθ ⊢; exact hS θ hθ) (fun θ hθ => by rw [hl w hw] at hθ ⊢; exact hR θ hθ)

/-- **C121** (Fermat). With `many ≥ 2` trials and the default optimizer, the path is that of the selected trial: the first with the least length
before the last step, unless a trial is spoilt; then a spoilt one is selected and a point of the path is NaN, whatever the others found. -/
theorem C121_fermat {Key : Type} (E : Env) (M : Minimizer Key) (lr : ℝ) (hlr : 0 < lr) (hopt : M.optimizer = adam (F.fin lr)) (hs : 1 ≤ M.steps)
    (shapes : List Shape) (hne : shapes ≠ []) (tx rx : Pt) (key : Key) (many : ℕ) (hm : 2 ≤ many) (hsp : (M.split key many).length = many)
    (x0 : ℕ → List ℝ) (hx0 : ∀ i k, (M.split key many)[i]? = some k →
      M.uniform k (shapes.map Shape.count).sum = (x0 i).map F.fin ∧ (x0 i).length = (shapes.map Shape.count).sum) :
    ∃ (os : List (Rev.RObj ℕ)) (xs : ℕ → ℕ → List F) (sts : ℕ → ℕ → M.optimizer.State) (w : ℕ) (p : Path), (shapes.map Shape.obj).mapM Rev.constObj = some os ∧
      (∀ i < many, Run { M with grad := fun _ => Rev.gradient (Rev.fermatLoss E os (Rev.constV (V2.fin tx)) (Rev.constV (V2.fin rx))) }
        (fermatLoss E ((shapes.map Shape.obj).map Obj.interact) (V2.fin tx) (V2.fin rx)) ((x0 i).map F.fin) M.steps (xs i) (sts i)) ∧
      FermatPath.differentiated E M (V2.fin tx) (shapes.map Shape.obj) (V2.fin rx) key many = .ok p ∧
      Selected (FermatSingular E.eps shapes tx rx) (fermatLoss E ((shapes.map Shape.obj).map Obj.interact) (V2.fin tx) (V2.fin rx)) M.steps many xs w ∧
      DescentPath (FermatSingular E.eps shapes tx rx) shapes tx rx (x0 w) M.steps (M.steps * (lr * Real.sqrt (370 / 7))) (xs w) p.xys ∧
      ((∃ i < many, Spoilt (FermatSingular E.eps shapes tx rx) M.steps (xs i)) → ∃ k s, shapes[k]? = some s ∧ s.count = 1 ∧ p.xys[k + 1]? = some V2.nan) := by
  set os : List (Rev.RObj ℕ) := shapes.map (robj ℕ) with hos
  set M' := M.differentiating (Rev.fermatLoss E os (Rev.constV (V2.fin tx)) (Rev.constV (V2.fin rx))) with hM'
  set f := fermatLoss E ((shapes.map Shape.obj).map Obj.interact) (V2.fin tx) (V2.fin rx) with hf
  have hcount : nUnknowns ((shapes.map Shape.obj).map Obj.interact) = (shapes.map Shape.count).sum := by
    rw [List.map_map]; exact shapes_count shapes
  have hL : ∀ θ' : List ℝ, θ'.length = (shapes.map Shape.count).sum → fermatLoss E (shapes.map fun s => s.obj.interact) (V2.fin tx) (V2.fin rx) (θ'.map F.fin) = F.fin (plen E.eps (ptsAt shapes tx rx θ')) :=
    fun θ' h' => fermat_real E tx rx h'
  obtain ⟨xs, sts, w, hsel, hrun, hmin, hd, hnan⟩ := many_selected (M := M') (f := f) hlr hopt (tx := tx) (rx := rx) hm hsp hs hx0 (fun x => gradient_length _ x)
    (Singular := FermatSingular E.eps shapes tx rx)
    (fun θ hθ ⟨pts, k, j, hp, ho, hg⟩ => by
      refine ⟨j, ?_, (C107_fermat E shapes tx rx θ hθ os (constObjs shapes) pts hp _ (fun θ' h' => hL θ' (by omega)) k j ho).1 hg⟩
      obtain ⟨s, h1, h2, rfl⟩ := ho
      exact offset_lt h1 h2)
    (fun θ hθ hS j hj => by
      obtain ⟨k, ho, -⟩ := C107_owner shapes j hj
      have hp := (pathAt_iff (ss := shapes) (tx := tx) (rx := rx) (θ := θ) hθ).mpr rfl
      obtain ⟨d, hd, -⟩ := (C107_fermat E shapes tx rx θ hθ os (constObjs shapes) _ hp _ (fun θ' h' => hL θ' (by omega)) k j ho).2
        (fun h => hS ⟨_, k, j, hp, ho, .inl h⟩) (fun h => hS ⟨_, k, j, hp, ho, .inr h⟩)
      exact ⟨d, hd⟩)
    (fun θ hθ => ⟨_, by rw [hf, List.map_map]; exact hL θ hθ⟩)
    (fun x hx j hj => by
      obtain ⟨k, s, -, -, h⟩ := points_nan tx rx hx hj
      exact length_nan E h)
  refine ⟨os, xs, sts, w, ⟨parametricToCartesian ((shapes.map Shape.obj).map Obj.interact) (xs w M.steps) (V2.fin tx) (V2.fin rx),
    pathLoss 0 ((shapes.map Shape.obj).map Obj.interact) (parametricToCartesian ((shapes.map Shape.obj).map Obj.interact) (xs w M.steps) (V2.fin tx) (V2.fin rx))⟩,
    constObjs shapes, hrun, ?_, hsel, hd, fun h => ?_⟩
  · simp only [FermatPath.differentiated, constObjs, FermatPath.fromTxObjectsRx, List.length_map, List.length_eq_zero_iff, if_neg hne, hcount]
    rw [← hos, ← hM', ← hf, hmin]
    rfl
  · obtain ⟨⟨m, hm, θ, hθ, h⟩, -⟩ := hsel.2.1 h
    exact hd.2 ⟨m, Nat.lt_of_succ_lt hm, θ, hθ, h⟩

/-- **C121** (MinPath). The same for `MinPath`; moreover the loss of the path is the objective of the selected trial before its last step. -/
theorem C121_min {Key : Type} (M : Minimizer Key) (lr : ℝ) (hlr : 0 < lr) (hopt : M.optimizer = adam (F.fin lr)) (hs : 1 ≤ M.steps)
    (shapes : List Shape) (hne : shapes ≠ []) (tx rx : Pt) (key : Key) (many : ℕ) (hm : 2 ≤ many) (hsp : (M.split key many).length = many)
    (x0 : ℕ → List ℝ) (hx0 : ∀ i k, (M.split key many)[i]? = some k →
      M.uniform k (shapes.map Shape.count).sum = (x0 i).map F.fin ∧ (x0 i).length = (shapes.map Shape.count).sum) :
    ∃ (os : List (Rev.RObj ℕ)) (xs : ℕ → ℕ → List F) (sts : ℕ → ℕ → M.optimizer.State) (w : ℕ) (p : Path), (shapes.map Shape.obj).mapM Rev.constObj = some os ∧
      (∀ i < many, Run { M with grad := fun _ => Rev.gradient (Rev.minLoss os (Rev.constV (V2.fin tx)) (Rev.constV (V2.fin rx))) }
        (minLoss ((shapes.map Shape.obj).map Obj.interact) (V2.fin tx) (V2.fin rx)) ((x0 i).map F.fin) M.steps (xs i) (sts i)) ∧
      MinPath.differentiated M (V2.fin tx) (shapes.map Shape.obj) (V2.fin rx) key many = .ok p ∧
      Selected (MinSingular shapes tx rx) (minLoss ((shapes.map Shape.obj).map Obj.interact) (V2.fin tx) (V2.fin rx)) M.steps many xs w ∧
      p.loss = minLoss ((shapes.map Shape.obj).map Obj.interact) (V2.fin tx) (V2.fin rx) (xs w (M.steps - 1)) ∧
      DescentPath (MinSingular shapes tx rx) shapes tx rx (x0 w) M.steps (M.steps * (lr * Real.sqrt (370 / 7))) (xs w) p.xys ∧
      ((∃ i < many, Spoilt (MinSingular shapes tx rx) M.steps (xs i)) → p.loss = F.nan ∧ ∃ k s, shapes[k]? = some s ∧ s.count = 1 ∧ p.xys[k + 1]? = some V2.nan) := by
  set os : List (Rev.RObj ℕ) := shapes.map (robj ℕ) with hos
  set M' := M.differentiating (Rev.minLoss os (Rev.constV (V2.fin tx)) (Rev.constV (V2.fin rx))) with hM'
  set f := minLoss ((shapes.map Shape.obj).map Obj.interact) (V2.fin tx) (V2.fin rx) with hf
  have hcount : nUnknowns ((shapes.map Shape.obj).map Obj.interact) = (shapes.map Shape.count).sum := by
    rw [List.map_map]; exact shapes_count shapes
  have hL : ∀ θ' : List ℝ, θ'.length = (shapes.map Shape.count).sum → minLoss (shapes.map fun s => s.obj.interact) (V2.fin tx) (V2.fin rx) (θ'.map F.fin) = F.fin (rtotal shapes (ptsAt shapes tx rx θ')) :=
    fun θ' h' => min_real tx rx h'
  have hfn : ∀ x : List F, x.length = (shapes.map Shape.count).sum → ∀ j : ℕ, x[j]? = some F.nan → f x = F.nan := fun x hx j hj => by
    obtain ⟨k, s, h1, h2, h⟩ := points_nan tx rx hx hj
    exact pathLoss_nan 0 h1 h2 h
  obtain ⟨xs, sts, w, hsel, hrun, hmin, hd, hnan⟩ := many_selected (M := M') (f := f) hlr hopt (tx := tx) (rx := rx) hm hsp hs hx0 (fun x => gradient_length _ x)
    (Singular := MinSingular shapes tx rx)
    (fun θ hθ ⟨pts, k, j, m, hp, ho, hg⟩ => by
      refine ⟨j, ?_, (C107_min shapes tx rx θ hθ os (constObjs shapes) pts hp _ (fun θ' h' => hL θ' (by omega)) k j ho).1 ⟨m, hg⟩⟩
      obtain ⟨s, h1, h2, rfl⟩ := ho
      exact offset_lt h1 h2)
    (fun θ hθ hS j hj => by
      obtain ⟨k, ho, -⟩ := C107_owner shapes j hj
      have hp := (pathAt_iff (ss := shapes) (tx := tx) (rx := rx) (θ := θ) hθ).mpr rfl
      obtain ⟨d, hd, -⟩ := (C107_min shapes tx rx θ hθ os (constObjs shapes) _ hp _ (fun θ' h' => hL θ' (by omega)) k j ho).2
        (fun m hm hs hn => hS ⟨_, k, j, m, hp, ho, hm, hs, hn⟩)
      exact ⟨d, hd⟩)
    (fun θ hθ => ⟨_, by rw [hf, List.map_map]; exact hL θ hθ⟩) hfn
  refine ⟨os, xs, sts, w, ⟨parametricToCartesian ((shapes.map Shape.obj).map Obj.interact) (xs w M.steps) (V2.fin tx) (V2.fin rx), f (xs w (M.steps - 1))⟩,
    constObjs shapes, hrun, ?_, hsel, rfl, hd, fun h => ?_⟩
  · simp only [MinPath.differentiated, constObjs, MinPath.fromTxObjectsRx, List.length_map, List.length_eq_zero_iff, if_neg hne, hcount]
    rw [← hos, ← hM', ← hf, hmin]
    rfl
  · obtain ⟨hsw, -⟩ := hsel.2.1 h
    obtain ⟨m, hm, θ, hθ, h⟩ := id hsw
    exact ⟨hnan hsw, hd.2 ⟨m, Nat.lt_of_succ_lt hm, θ, hθ, h⟩⟩

/-- The hypotheses are met by a minimizer with two trials, of which the first is spoilt (it starts with the reflection point at the transmitter, which is
on the wall) and the second is not spoilt from the start. -/
example : ∃ (M : Minimizer ℕ) (shapes : List Shape) (tx rx : Pt) (x0 : ℕ → List ℝ), M.optimizer = adam (F.fin 0.1) ∧ 2 ≤ M.steps ∧ shapes ≠ [] ∧ (M.split 0 2).length = 2 ∧
    (∀ i k, (M.split 0 2)[i]? = some k → M.uniform k (shapes.map Shape.count).sum = (x0 i).map F.fin ∧ (x0 i).length = (shapes.map Shape.count).sum) ∧
    (∀ xs : ℕ → List F, xs 0 = (x0 0).map F.fin → Spoilt (MinSingular shapes tx rx) M.steps xs) ∧ ¬ MinSingular shapes tx rx (x0 1) := by
  refine ⟨⟨adam (F.fin 0.1), 100, fun _ x => x, fun k n => List.replicate n (F.fin (if k = 0 then 1 / 4 else 1 / 2)), fun _ n => List.range n⟩,
    [.wall ⟨0, 0⟩ ⟨1, 0⟩], ⟨1 / 4, 0⟩, ⟨2, 1⟩, fun i => [if i = 0 then 1 / 4 else 1 / 2], rfl, by norm_num, by simp, by simp, ?_, ?_, ?_⟩
  · intro i k h
    obtain ⟨h1, h2⟩ := List.getElem?_eq_some_iff.mp h
    simp at h1 h2
    subst h2
    simp [Shape.count]
  · intro xs h
    refine ⟨0, by norm_num, [1 / 4], by simpa using h, [⟨1 / 4, 0⟩, ⟨1 / 4, 0⟩, ⟨2, 1⟩], 0, 0, 0, ?_, ⟨_, rfl, rfl, rfl⟩, .inl rfl, .inl ⟨_, _, rfl⟩, ⟨_, rfl, rfl⟩⟩
    refine (pathAt_iff (by simp [Shape.count])).mpr ?_
    simp [ptsAt, place, pointAt, Shape.count, point]
  · rintro ⟨pts, k, j, m, hp, ⟨s, hs, hc, hj⟩, hm, -, a, h1, h2⟩
    obtain rfl : k = 0 := by
      have := (List.getElem?_eq_some_iff.mp hs).1
      simp at this; exact this
    have e := (pathAt_iff (by simp [Shape.count])).mp hp
    simp [ptsAt, place, pointAt, Shape.count, point] at e
    subst e
    rcases hm with rfl | rfl
    · simp at h1 h2
      subst h1
      simp at h2
    · simp at h1 h2
      subst h1
      simp at h2

end DiffeRT2d.Props
