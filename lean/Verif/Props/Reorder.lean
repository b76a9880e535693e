import Verif.Props.Laws
import Verif.Props.Grid

/-! # C123: the order of the objects does not matter, in both modes -/

namespace DiffeRT2d.Props
open Classical Spec

theorem F.max_self' (a : F) : F.max a a = a := by
  cases a <;> simp [F.max, F.isNan, F.lt]

theorem maxOf_absorbs {z : F} {xs : List F} : F.max (F.maxOf z xs) z = F.maxOf z xs ∧ ∀ x ∈ xs, F.max (F.maxOf z xs) x = F.maxOf z xs := by
  unfold F.maxOf
  have key : ∀ (l : List F) (a b : F), F.max a b = a → F.max (l.foldl F.max a) b = l.foldl F.max a := by
    intro l
    induction l with
    | nil => intro a b h; exact h
    | cons c l ih =>
      intro a b h
      apply ih
      rw [F.max_assoc', F.max_comm' c b, ← F.max_assoc', h]
  refine ⟨key xs z z (F.max_self' z), ?_⟩
  intro x hx
  induction xs generalizing z with
  | nil => cases hx
  | cons c l ih =>
    rcases List.mem_cons.mp hx with rfl | hx
    · rw [List.foldl_cons]
      apply key
      rw [F.max_assoc', F.max_self']
    · exact ih hx

theorem maxOf_absorbed {z M : F} {xs : List F} (hz : F.max M z = M) (hx : ∀ x ∈ xs, F.max M x = M) : F.max M (F.maxOf z xs) = M := by
  unfold F.maxOf
  induction xs generalizing z with
  | nil => exact hz
  | cons c l ih =>
    apply ih
    · rw [← F.max_assoc', hz]; exact hx c List.mem_cons_self
    · exact fun x h => hx x (List.mem_cons_of_mem _ h)

/-- A maximum depends on the set of values only. -/
theorem maxOf_ext {z : F} {xs ys : List F} (h : ∀ x, x ∈ xs ↔ x ∈ ys) : F.maxOf z xs = F.maxOf z ys := by
  obtain ⟨a1, a2⟩ := maxOf_absorbs (z := z) (xs := xs)
  obtain ⟨b1, b2⟩ := maxOf_absorbs (z := z) (xs := ys)
  have h1 := maxOf_absorbed (M := F.maxOf z xs) (xs := ys) a1 fun x hx => a2 x ((h x).mpr hx)
  have h2 := maxOf_absorbed (M := F.maxOf z ys) (xs := xs) b1 fun x hx => b2 x ((h x).mp hx)
  rw [← h1, F.max_comm', h2]

/-- The validity of a path depends on the objects that may obstruct it as a set. -/
theorem isValid_ext (p : Path) (E : Env) (ap : Option Bool) (os os' inter : List Interactable) (c c' : List ℤ) (tol patch : F) (kw : ActKw)
    (hl : p.xys.length ≤ c.length + 2) (hl' : p.xys.length ≤ c'.length + 2)
    (h : ∀ v, v ∈ hitVals p E os c patch ap kw ↔ v ∈ hitVals p E os' c' patch ap kw) :
    p.isValid E os' c' inter tol patch ap kw = p.isValid E os c inter tol patch ap kw := by
  rcases hard_or_soft E ap with hh | hh
  · rw [isValid_hard p hh _ _ _ _ _ _ hl, isValid_hard p hh _ _ _ _ _ _ hl']
    have : (hitVals p E os' c' patch ap kw).any Truthy.toBool = (hitVals p E os c patch ap kw).any Truthy.toBool := by
      rw [Bool.eq_iff_iff]; simp only [List.any_eq_true]
      exact ⟨fun ⟨x, hx, e⟩ => ⟨x, (h x).mpr hx, e⟩, fun ⟨x, hx, e⟩ => ⟨x, (h x).mp hx, e⟩⟩
    rw [this]
  · rw [isValid_soft p hh _ _ _ _ _ _ hl, isValid_soft p hh _ _ _ _ _ _ hl']
    rw [maxOf_ext (ys := (hitVals p E os c patch ap kw).map Truthy.toF)]
    intro x
    simp only [List.mem_map]
    exact ⟨fun ⟨x, hx, e⟩ => ⟨x, (h x).mpr hx, e⟩, fun ⟨x, hx, e⟩ => ⟨x, (h x).mp hx, e⟩⟩

theorem objectsAt_renumber {s : Scene} {os' : List Obj} {σ : Equiv.Perm ℕ} (hσ : Rearranged σ s.objects os') (c : List ℤ) :
    objectsAt (s.withObjects os') (renumber σ c) = objectsAt s c := by
  unfold objectsAt renumber
  rw [List.filterMap_map]
  apply List.filterMap_congr
  intro i hi
  simp only [Function.comp, Scene.withObjects, Int.toNat_natCast]
  exact hσ i.toNat

theorem renumber_get {σ : Equiv.Perm ℕ} {n : ℕ} {c : List ℤ} (hc : IsCandidate n c) (i j : ℕ) :
    (renumber σ c)[i]? = some ((σ j : ℕ) : ℤ) ↔ c[i]? = some (j : ℤ) := by
  unfold renumber
  rw [List.getElem?_map, Option.map_eq_some_iff]
  constructor
  · rintro ⟨a, ha, e⟩
    have e2 : σ a.toNat = σ j := by exact_mod_cast e
    have := σ.injective e2
    have := hc.1 a (List.mem_of_getElem? ha)
    rw [ha]; congr 1; omega
  · intro h; exact ⟨_, h, by simp⟩

/-- **C123.** The validity of a path, in both modes and whatever the objects, is the same after the objects of the scene are rearranged. -/
theorem C123_validity (s : Scene) (σ : Equiv.Perm ℕ) (os' : List Obj) (hσ : Rearranged σ s.objects os') (c : List ℤ)
    (hc : IsCandidate s.objects.length c) (v : Scene.ValidOpts) (p : Path) (hp : p.xys.length = c.length + 2) (inter : List Obj) :
    (s.withObjects os').validity v p (renumber σ c) inter = s.validity v p c inter := by
  unfold Scene.validity
  have hlen : (renumber σ c).length = c.length := by simp [renumber]
  refine isValid_ext p v.E v.approx _ _ _ c (renumber σ c) v.tol v.patch v.kw hp.le (by rw [hlen, hp]) ?_
  intro x
  rw [mem_hitVals hp.le, mem_hitVals (by rw [hlen, hp])]
  simp only [List.getElem?_map, Option.map_eq_some_iff, Scene.withObjects]
  constructor
  · rintro ⟨i, j, o, a, b, ha, hb, ⟨o0, h1, rfl⟩, h2, h3, rfl⟩
    refine ⟨i, σ j, _, a, b, ha, hb, ⟨o0, by rw [hσ j, h1], rfl⟩, ?_, ?_, rfl⟩
    · rintro ⟨k, e, hk⟩; exact h2 ⟨k, e, (renumber_get hc k j).mp hk⟩
    · intro hk; exact h3 ((renumber_get hc i j).mp hk)
  · rintro ⟨i, j, o, a, b, ha, hb, ⟨o0, h1, rfl⟩, h2, h3, rfl⟩
    obtain ⟨j, rfl⟩ := σ.surjective j
    refine ⟨i, j, _, a, b, ha, hb, ⟨o0, by rw [← hσ j, h1], rfl⟩, ?_, ?_, rfl⟩
    · rintro ⟨k, e, hk⟩; exact h2 ⟨k, e, (renumber_get hc k j).mpr hk⟩
    · intro hk; exact h3 ((renumber_get hc i j).mpr hk)

/-! ## The loops -/

/-- One turn of the loops for a path class that ignores its key. -/
noncomputable def turnOf {Key : Type} (s : Scene) (m : Scene.PathMethod Key) (v : Scene.ValidOpts) (t r : V2 F) (c : List ℤ) :
    Except PyErr (Path × Truthy) := do
  let p ← m.trace none t (objectsAt s c) r
  let valid ← s.validity v p c (objectsAt s c)
  pure (p, valid)

theorem turnOf_renumber {Key : Type} (s : Scene) (m : Scene.PathMethod Key) (h1 : OnePointEach m) (v : Scene.ValidOpts) (σ : Equiv.Perm ℕ)
    (os' : List Obj) (hσ : Rearranged σ s.objects os') (t r : V2 F) (c : List ℤ) (hc : IsCandidate s.objects.length c) :
    turnOf (s.withObjects os') m v t r (renumber σ c) = turnOf s m v t r c := by
  unfold turnOf
  rw [objectsAt_renumber hσ c]
  cases hp : m.trace none t (objectsAt s c) r with
  | error e => rfl
  | ok p =>
    have := h1 _ _ _ _ _ hp
    rw [objectsAt_length s c hc] at this
    simp only [bind, Except.bind]
    rw [C123_validity s σ os' hσ c hc v p this]

theorem tracePaths_turns {Key : Type} (s : Scene) (m : Scene.PathMethod Key) (hk : KeyIndependent m) (v : Scene.ValidOpts)
    (split : Key → ℕ → List Key) (l : List (NamedPair × List ℤ)) (hl : ∀ e ∈ l, IsCandidate s.objects.length e.2) (key : Option Key) :
    s.tracePaths split m v key l = l.mapM fun e => (turnOf s m v e.1.1.2 e.1.2.2 e.2).map fun pv => ⟨e.1.1.1, e.1.2.1, pv.2, pv.1, e.2⟩ := by
  induction l generalizing key with
  | nil => rfl
  | cons e l ih =>
    rw [List.mapM_cons, ← ih fun e he => hl e (List.mem_cons_of_mem _ he)]
    obtain ⟨⟨⟨tk, t⟩, ⟨rk, r⟩⟩, c⟩ := e
    conv_lhs => unfold Scene.tracePaths
    rw [interacting_eq s c (hl _ List.mem_cons_self)]
    simp only [bind, Except.bind, turnOf, hk (Scene.splitKey split key).2 none]
    cases m.trace none t (objectsAt s c) r with
    | error e => rfl
    | ok p =>
      simp only
      cases s.validity v p c (objectsAt s c) <;> rfl

theorem facc_turns {Key : Type} (s : Scene) (m : Scene.PathMethod Key) (hk : KeyIndependent m) (v : Scene.ValidOpts) (f : Scene.PathFun)
    (t r : V2 F) (l : List (List ℤ × Option Key)) (hl : ∀ e ∈ l, IsCandidate s.objects.length e.1) (acc : F) :
    s.facc m v f t r acc l = ((l.map Prod.fst).mapM fun c => (turnOf s m v t r c).map fun pv => pv.2.toF * f t r pv.1 (objectsAt s c)).map
      fun zs => zs.foldl (· + ·) acc := by
  induction l generalizing acc with
  | nil => rfl
  | cons e l ih =>
    obtain ⟨c, k⟩ := e
    have ih' := ih fun e he => hl e (List.mem_cons_of_mem _ he)
    rw [List.map_cons, List.mapM_cons]
    generalize List.mapM (fun c => (turnOf s m v t r c).map fun pv => pv.2.toF * f t r pv.1 (objectsAt s c)) (l.map Prod.fst) = T at ih' ⊢
    unfold Scene.facc
    rw [interacting_eq s c (hl _ List.mem_cons_self)]
    simp only [bind, Except.bind, turnOf, hk k none]
    cases m.trace none t (objectsAt s c) r with
    | error e => rfl
    | ok p =>
      simp only
      cases s.validity v p c (objectsAt s c) with
      | error e => rfl
      | ok valid =>
        simp only [pure, Except.pure, Except.map, ih']
        cases T <;> rfl

/-! ## Rearranged loops -/

theorem mapM_perm {α β : Type} {f : α → Except PyErr β} {xs xs' : List α} (h : xs.Perm xs') {ys : List β} (e : xs.mapM f = .ok ys) :
    ∃ ys', xs'.mapM f = .ok ys' ∧ ys'.Perm ys := by
  induction h generalizing ys with
  | nil => exact ⟨ys, e, .refl _⟩
  | cons x _ ih =>
    rw [mapM_iff] at e
    cases e with
    | @cons _ y _ ys h1 h2 =>
      obtain ⟨ys', g1, g2⟩ := ih ((mapM_iff _ _ _).mpr h2)
      exact ⟨y :: ys', (mapM_iff _ _ _).mpr (.cons h1 ((mapM_iff _ _ _).mp g1)), g2.cons y⟩
  | swap x x' l =>
    rw [mapM_iff] at e
    cases e with
    | @cons _ y _ ys h1 h2 =>
      cases h2 with
      | @cons _ y' _ ys h2 h3 => exact ⟨y' :: y :: ys, (mapM_iff _ _ _).mpr (.cons h2 (.cons h1 h3)), .swap _ _ _⟩
  | trans _ _ ih1 ih2 =>
    obtain ⟨ys1, g1, g2⟩ := ih1 e
    obtain ⟨ys2, k1, k2⟩ := ih2 g1
    exact ⟨ys2, k1, k2.trans g2⟩

theorem sum_perm {xs ys : List F} (h : xs.Perm ys) (a : F) : xs.foldl (· + ·) a = ys.foldl (· + ·) a := by
  haveI : RightCommutative (fun a b : F => a + b) :=
    ⟨fun a b c => by rw [F.add_assoc', F.add_comm' b c, ← F.add_assoc']⟩
  exact h.foldl_eq a

theorem renumber_injective {σ : Equiv.Perm ℕ} {n : ℕ} {c c' : List ℤ} (hc : IsCandidate n c) (hc' : IsCandidate n c')
    (h : renumber σ c = renumber σ c') : c = c' := by
  rw [← renumber_symm (σ := σ) hc, h, renumber_symm hc']

theorem candidates_perm (s : Scene) (σ : Equiv.Perm ℕ) (os' : List Obj) (hσ : Rearranged σ s.objects os') (lo hi : ℤ) (cs cs' : List (List ℤ))
    (hd : cs.Nodup) (hm : ∀ c, c ∈ cs ↔ IsCandidate s.objects.length c ∧ lo ≤ c.length ∧ (c.length : ℤ) ≤ hi)
    (hd' : cs'.Nodup) (hm' : ∀ c, c ∈ cs' ↔ IsCandidate os'.length c ∧ lo ≤ c.length ∧ (c.length : ℤ) ≤ hi) :
    (cs.map (renumber σ)).Perm cs' := by
  refine (List.perm_ext_iff_of_nodup ?_ hd').mpr ?_
  · exact List.Nodup.map_on (fun a ha b hb e => renumber_injective ((hm a).mp ha).1 ((hm b).mp hb).1 e) hd
  · intro c
    rw [List.mem_map, hm']
    constructor
    · rintro ⟨c, hc, rfl⟩
      obtain ⟨h1, h2, h3⟩ := (hm c).mp hc
      exact ⟨isCandidate_renumber hσ h1, by simpa [renumber] using h2, by simpa [renumber] using h3⟩
    · rintro ⟨h1, h2, h3⟩
      refine ⟨renumber σ.symm c, (hm _).mpr ⟨isCandidate_renumber (rearranged_symm hσ) h1, by simpa [renumber] using h2, by simpa [renumber] using h3⟩, ?_⟩
      exact renumber_symm (σ := σ.symm) h1

section
variable {Key : Type} (G : GraphLib) (hG : GraphContract G) (s : Scene) (hs : IsScene s) (σ : Equiv.Perm ℕ) (os' : List Obj)
  (hσ : Rearranged σ s.objects os') (lo hi : ℤ) (hlo : 0 ≤ lo) (split : Key → ℕ → List Key) (key : Option Key) (m : Scene.PathMethod Key)
  (hk : KeyIndependent m) (h1 : OnePointEach m) (v : Scene.ValidOpts)

include hG hs hσ hlo hk h1 in
/-- **C123.** Rearranging the objects rearranges the tuples of `all_paths` and renumbers their objects, and changes nothing else: same names,
same points and losses, same validities (booleans or truth degrees), in both modes, whatever the objects, the activation, the
tolerance and the patch (any path class that does not use its key and traces one point per object). -/
theorem C123_paths (ts : List Scene.Traced) (e : s.allPaths G split m { minOrder := lo, maxOrder := hi } v key = .ok ts) :
    ∃ ts', (s.withObjects os').allPaths G split m { minOrder := lo, maxOrder := hi } v key = .ok ts' ∧ ts'.Perm (ts.map (renumberTuple σ)) := by
  obtain ⟨⟨tx, ht, htx⟩, ⟨rx, hr, hrx⟩⟩ := hs
  obtain ⟨cs, hcs, hcd, hcm, -⟩ := C53_sound_complete G hG s lo hi hlo
  obtain ⟨cs', hcs', hcd', hcm', -⟩ := C53_sound_complete G hG (s.withObjects os') lo hi hlo
  have hp := candidates_perm s σ os' hσ lo hi cs cs' hcd hcm hcd' hcm'
  rw [allPaths_eq G s tx rx ht hr htx hrx _ cs hcs, tracePaths_turns s m hk v split _
    (fun e he => ((hcm _).mp (List.mem_product.mp he).2).1)] at e
  rw [allPaths_eq G (s.withObjects os') tx rx ht hr htx hrx _ cs' hcs', tracePaths_turns _ m hk v split _
    (fun e he => ((hcm' _).mp (List.mem_product.mp he).2).1)]
  have e2 : (((tx ×ˢ rx) ×ˢ cs).map fun e => (e.1, renumber σ e.2)).mapM (fun e => (turnOf (s.withObjects os') m v e.1.1.2 e.1.2.2 e.2).map
      fun pv => (⟨e.1.1.1, e.1.2.1, pv.2, pv.1, e.2⟩ : Scene.Traced)) = .ok (ts.map (renumberTuple σ)) := by
    rw [mapM_iff] at e ⊢
    rw [List.forall₂_map_left_iff, List.forall₂_map_right_iff]
    have hmem : ∀ e ∈ (tx ×ˢ rx) ×ˢ cs, IsCandidate s.objects.length e.2 := fun e he => ((hcm _).mp (List.mem_product.mp he).2).1
    generalize (tx ×ˢ rx) ×ˢ cs = l at e hmem
    induction e with
    | nil => exact .nil
    | @cons x y l ys h _ ih =>
      refine .cons ?_ (ih fun e he => hmem e (List.mem_cons_of_mem _ he))
      rw [turnOf_renumber s m h1 v σ os' hσ _ _ _ (hmem _ List.mem_cons_self)]
      revert h
      cases turnOf s m v x.1.1.2 x.1.2.2 x.2 with
      | error e => intro h; cases h
      | ok pv => intro h; cases h; rfl
  refine mapM_perm ?_ e2
  have : ((tx ×ˢ rx) ×ˢ cs).map (fun e => (e.1, renumber σ e.2)) = (tx ×ˢ rx) ×ˢ (cs.map (renumber σ)) := by
    have := product_map id (renumber σ) (tx ×ˢ rx) cs
    rw [List.map_id] at this
    exact this.symm
  rw [this]
  exact hp.product_left _

include hG hs hσ hlo hk h1 in
/-- Half of the next theorem. -/
theorem reorder_accumulate (f : Scene.PathFun) (es : List (String × String × F))
    (e : s.accumulateOverPaths G split m { minOrder := lo, maxOrder := hi } v key f = .ok es) :
    (s.withObjects os').accumulateOverPaths G split m { minOrder := lo, maxOrder := hi } v key f = .ok es := by
  have hS := hs
  obtain ⟨⟨tx, ht, htx⟩, ⟨rx, hr, hrx⟩⟩ := hs
  obtain ⟨cs, hcs, hcd, hcm, -⟩ := C53_sound_complete G hG s lo hi hlo
  obtain ⟨cs', hcs', hcd', hcm', -⟩ := C53_sound_complete G hG (s.withObjects os') lo hi hlo
  have hp := candidates_perm s σ os' hσ lo hi cs cs' hcd hcm hcd' hcm'
  by_cases hne : cs = []
  · subst hne
    have hne' : cs' = [] := by simpa using hp.symm.eq_nil
    subst hne'
    have hnil : ((tx ×ˢ rx) ×ˢ ([] : List (List ℤ))) = [] := List.product_nil _
    unfold Scene.accumulateOverPaths at e ⊢
    rw [allPaths_eq G _ tx rx ht hr htx hrx _ [] hcs, hnil] at e
    rw [allPaths_eq G (s.withObjects os') tx rx ht hr htx hrx _ [] hcs', hnil]
    exact e
  · have hne' : cs' ≠ [] := by
      rintro rfl
      exact hne (by simpa using hp.eq_nil)
    rw [C58_entries G hG s tx rx ht hr htx hrx { minOrder := lo, maxOrder := hi } hlo cs hcs hne] at e
    rw [C58_entries G hG (s.withObjects os') tx rx ht hr htx hrx { minOrder := lo, maxOrder := hi } hlo cs' hcs' hne']
    cases hts : s.allPaths G split m { minOrder := lo, maxOrder := hi } v key with
    | error x => rw [hts] at e; cases e
    | ok ts =>
      obtain ⟨ts', hts', hperm⟩ := C123_paths G hG s hS σ os' hσ lo hi hlo split key m hk h1 v ts hts
      rw [hts] at e
      rw [hts', ← e]
      show Except.ok _ = Except.ok _
      congr 1
      apply List.map_congr_left
      rintro p -
      congr 2
      have h2 := (hperm.filter fun x => decide ((x.tx, x.rx) = (p.1.1, p.2.1))).map (weighted (s.withObjects os') f p.1.2 p.2.2)
      unfold F.sum
      rw [sum_perm h2, List.filter_map, List.map_map]
      congr 1
      apply List.map_congr_left
      intro x _
      simp only [Function.comp, weighted, renumberTuple, objectsAt_renumber hσ]

include hG hs hσ hlo hk h1 in
/-- **C123.** `accumulate_over_paths` gives exactly the same values after the objects are rearranged, whatever the function (which receives the
same interacting objects). -/
theorem C123_accumulate (f : Scene.PathFun) (es : List (String × String × F)) :
    s.accumulateOverPaths G split m { minOrder := lo, maxOrder := hi } v key f = .ok es ↔
      (s.withObjects os').accumulateOverPaths G split m { minOrder := lo, maxOrder := hi } v key f = .ok es :=
  ⟨reorder_accumulate G hG s hs σ os' hσ lo hi hlo split key m hk h1 v f es,
    reorder_accumulate G hG (s.withObjects os') ⟨hs.tx, hs.rx⟩ σ.symm s.objects (rearranged_symm hσ) lo hi hlo split key m hk h1 v f es⟩

/-! ### Grids -/

/-- Two computations succeed with the same results. -/
def SameOk {α : Type} (a b : Except PyErr α) : Prop := ∀ z, a = .ok z ↔ b = .ok z

theorem SameOk.map {α β : Type} {a b : Except PyErr α} (h : SameOk a b) (g : α → β) : SameOk (a.map g) (b.map g) := by
  intro z
  cases a with
  | ok x => rw [(h x).mp rfl]
  | error e =>
    cases b with
    | ok y => have := (h y).mpr rfl; cases this
    | error e' => simp [Except.map]

theorem SameOk.mapM {α β : Type} {f g : α → Except PyErr β} (h : ∀ x, SameOk (f x) (g x)) (xs : List α) : SameOk (xs.mapM f) (xs.mapM g) := by
  intro z
  rw [mapM_iff, mapM_iff]
  exact ⟨fun H => H.imp fun x y e => (h x y).mp e, fun H => H.imp fun x y e => (h x y).mpr e⟩

/-- The value of a computation, NaN when it fails. -/
def valueOr : Except PyErr F → F
  | .ok y => y
  | .error _ => F.nan

theorem SameOk.total {a b : Except PyErr F} (h : SameOk a b) : valueOr a = valueOr b := by
  cases a with
  | ok x => rw [(h x).mp rfl]
  | error e =>
    cases b with
    | ok y => have := (h y).mpr rfl; cases this
    | error e' => rfl

theorem SameOk.gridCore (gradOp : (V2 F → F) → V2 F → V2 F) (ps : PyDict (V2 F)) {φ ψ : V2 F → V2 F → Except PyErr F}
    (h : ∀ p q, SameOk (φ p q) (ψ p q)) (X Y : Scene.Grid F) : SameOk (gridCore gradOp ps φ X Y) (gridCore gradOp ps ψ X Y) := by
  unfold DiffeRT2d.gridCore
  cases Scene.dstack X Y with
  | error e => intro z; rfl
  | ok grid =>
    simp only [bind, Except.bind]
    apply SameOk.mapM
    intro p
    have e : (fun x => valueOr (φ p.2 x)) = fun x => valueOr (ψ p.2 x) := by funext x; exact (h p.2 x).total
    have := (SameOk.mapM (fun row => SameOk.mapM (h p.2) row) grid).map fun z => (p.1, z, grid.map fun row => row.map (gradOp fun x => valueOr (φ p.2 x)))
    conv at this => rhs; rw [e]
    exact this

include hσ hk h1 in
theorem reorder_facc (f : Scene.PathFun) (t r : V2 F) (cs cs' : List (List ℤ)) (hc : ∀ c ∈ cs, IsCandidate s.objects.length c)
    (hc' : ∀ c ∈ cs', IsCandidate os'.length c) (hp : (cs.map (renumber σ)).Perm cs') (ks ks' : List (Option Key)) (hks : ks.length = cs.length)
    (hks' : ks'.length = cs'.length) (z : F) (e : s.facc m v f t r 0 (cs.zip ks) = .ok z) :
    (s.withObjects os').facc m v f t r 0 (cs'.zip ks') = .ok z := by
  rw [facc_turns s m hk v f t r _ (fun e he => hc _ (List.of_mem_zip he).1), List.map_fst_zip (by omega)] at e
  rw [facc_turns (s.withObjects os') m hk v f t r _ (fun e he => hc' _ (List.of_mem_zip he).1), List.map_fst_zip (by omega)]
  cases hz : cs.mapM fun c => (turnOf s m v t r c).map fun pv => pv.2.toF * f t r pv.1 (objectsAt s c) with
  | error x => rw [hz] at e; cases e
  | ok zs =>
    rw [hz] at e
    have e2 : (cs.map (renumber σ)).mapM (fun c => (turnOf (s.withObjects os') m v t r c).map fun pv => pv.2.toF * f t r pv.1
        (objectsAt (s.withObjects os') c)) = .ok zs := by
      rw [mapM_iff] at hz ⊢
      rw [List.forall₂_map_left_iff]
      clear hp hks e
      induction hz with
      | nil => exact .nil
      | @cons c z cs zs h _ ih =>
        refine .cons ?_ (ih fun e he => hc e (List.mem_cons_of_mem _ he))
        rw [turnOf_renumber s m h1 v σ os' hσ _ _ _ (hc _ List.mem_cons_self), objectsAt_renumber hσ]
        exact h
    obtain ⟨zs', g1, g2⟩ := mapM_perm hp e2
    rw [g1, ← e]
    exact congrArg Except.ok (sum_perm g2 0)

include hG hs hσ hlo hk h1 in
/-- **C123.** The maps of both grid methods, values and gradients, are the same after the objects are rearranged. -/
theorem C123_grids (hsp : SplitCount split) (f : Scene.PathFun) (gradOp : (V2 F → F) → V2 F → V2 F) (grad vag : Bool) (X Y : Scene.Grid F)
    (out : List (String × Scene.GridOut)) :
    (s.accumulateOnReceiversGrid G split m { minOrder := lo, maxOrder := hi } v key gradOp grad vag f X Y = .ok out ↔
      (s.withObjects os').accumulateOnReceiversGrid G split m { minOrder := lo, maxOrder := hi } v key gradOp grad vag f X Y = .ok out) ∧
    (s.accumulateOnTransmittersGrid G split m { minOrder := lo, maxOrder := hi } v key gradOp grad vag f X Y = .ok out ↔
      (s.withObjects os').accumulateOnTransmittersGrid G split m { minOrder := lo, maxOrder := hi } v key gradOp grad vag f X Y = .ok out) := by
  obtain ⟨⟨tx, ht, htx⟩, ⟨rx, hr, hrx⟩⟩ := hs
  obtain ⟨cs, hcs, hcd, hcm, -⟩ := C53_sound_complete G hG s lo hi hlo
  obtain ⟨cs', hcs', hcd', hcm', -⟩ := C53_sound_complete G hG (s.withObjects os') lo hi hlo
  have hp := candidates_perm s σ os' hσ lo hi cs cs' hcd hcm hcd' hcm'
  have hp' := candidates_perm (s.withObjects os') σ.symm s.objects (rearranged_symm hσ) lo hi cs' cs hcd' hcm' hcd hcm
  have hlen : ∀ n, (Scene.gridKeys split key n).length = n := by
    intro n; cases key <;> simp [Scene.gridKeys, hsp _ n]
  have same : ∀ t r, SameOk (s.facc m v f t r 0 (cs.zip (Scene.gridKeys split key cs.length)))
      ((s.withObjects os').facc m v f t r 0 (cs'.zip (Scene.gridKeys split key cs'.length))) := fun t r z =>
    ⟨reorder_facc s σ os' hσ m hk h1 v f t r cs cs' (fun c hc => ((hcm c).mp hc).1) (fun c hc => ((hcm' c).mp hc).1) hp _ _ (hlen _) (hlen _) z,
      reorder_facc (s.withObjects os') σ.symm s.objects (rearranged_symm hσ) m hk h1 v f t r cs' cs (fun c hc => ((hcm' c).mp hc).1)
        (fun c hc => ((hcm c).mp hc).1) hp' _ _ (hlen _) (hlen _) z⟩
  constructor
  · rw [receivers_eq G s tx ht htx _ cs hcs, receivers_eq G (s.withObjects os') tx ht htx _ cs' hcs']
    exact (SameOk.gridCore gradOp tx same X Y).map _ out
  · rw [transmitters_eq G s rx hr hrx _ cs hcs, transmitters_eq G (s.withObjects os') rx hr hrx _ cs' hcs']
    exact (SameOk.gridCore gradOp rx (fun r t => same t r) X Y).map _ out

end

/-- Non-vacuity: a scene whose two walls are exchanged; the traversal succeeds, so the permutation statement applies, in any mode. -/
example (v : Scene.ValidOpts) (f : Scene.PathFun) : ∃ ts ts',
    (exScene.addObjects (wallsOf [(⟨0, 5⟩, ⟨3, 5⟩)])).allPaths refLib (fun _ : Unit => fun _ => []) (imageMethod Unit) { minOrder := 0, maxOrder := 2 } v none = .ok ts ∧
    ((exScene.addObjects (wallsOf [(⟨0, 5⟩, ⟨3, 5⟩)])).withObjects (wallsOf [(⟨0, 5⟩, ⟨3, 5⟩), (⟨0, 0⟩, ⟨3, 0⟩)])).allPaths refLib
      (fun _ : Unit => fun _ => []) (imageMethod Unit) { minOrder := 0, maxOrder := 2 } v none = .ok ts' ∧
    ts'.Perm (ts.map (renumberTuple (Equiv.swap 0 1))) ∧
    ∀ es, (exScene.addObjects (wallsOf [(⟨0, 5⟩, ⟨3, 5⟩)])).accumulateOverPaths refLib (fun _ : Unit => fun _ => []) (imageMethod Unit)
        { minOrder := 0, maxOrder := 2 } v none f = .ok es ↔
      ((exScene.addObjects (wallsOf [(⟨0, 5⟩, ⟨3, 5⟩)])).withObjects (wallsOf [(⟨0, 5⟩, ⟨3, 5⟩), (⟨0, 0⟩, ⟨3, 0⟩)])).accumulateOverPaths refLib
        (fun _ : Unit => fun _ => []) (imageMethod Unit) { minOrder := 0, maxOrder := 2 } v none f = .ok es := by
  obtain ⟨-, -, -, -, -, -, -, -, hr⟩ := exScene_runs v.E {}
  have hk : KeyIndependent (imageMethod Unit) := fun _ _ _ _ _ => rfl
  have hs : IsScene (exScene.addObjects (wallsOf [(⟨0, 5⟩, ⟨3, 5⟩)])) := ⟨exScene_isScene.tx, exScene_isScene.rx⟩
  obtain ⟨ts, h⟩ := C56_image_total refLib refLib_contract Unit (exScene.addObjects (wallsOf [(⟨0, 5⟩, ⟨3, 5⟩)])) hs
    (by
      intro o ho
      rcases List.mem_append.mp ho with ho | ho
      · rw [exScene, wallScene_objects] at ho
        obtain ⟨w, -, rfl⟩ := List.mem_map.mp ho; exact ⟨_, rfl⟩
      · obtain ⟨w, -, rfl⟩ := List.mem_map.mp ho; exact ⟨_, rfl⟩)
    { minOrder := 0, maxOrder := 2 } le_rfl (fun _ : Unit => fun _ => []) none v
  obtain ⟨ts', h', hp⟩ := C123_paths refLib refLib_contract _ hs (Equiv.swap 0 1) _ hr 0 2 le_rfl _ _ _ hk (onePointEach_image Unit) v ts h
  exact ⟨ts, ts', h, h', hp, C123_accumulate refLib refLib_contract _ hs (Equiv.swap 0 1) _ hr 0 2 le_rfl _ _ _ hk (onePointEach_image Unit) v f⟩

end DiffeRT2d.Props
