import Verif.Lemmas.Traversal
import Verif.Props.Tracing
import Verif.Props.Validity

/-! # Properties C47, C56–C59, C61: traversal of the paths of a scene -/

namespace DiffeRT2d.Props
open Spec
open Classical

/-! ## C56 — one traced path per pair and candidate -/

theorem validity_eq (s : Scene) (v : Scene.ValidOpts) (p : Path) (c : List ℤ) (os : List Obj) :
    s.validity v p c os = p.isValid v.E (s.objects.map Obj.interact) c (os.map Obj.interact) v.tol v.patch
      v.approx v.kw := rfl

theorem allPaths_eq {Key : Type} (G : GraphLib) (s : Scene) (tx rx : PyDict (V2 F)) (ht : Distinct tx)
    (hr : Distinct rx) (h1 : s.transmitters = .fromMapping tx) (h2 : s.receivers = .fromMapping rx)
    (o : Scene.Orders) (cs : List (List ℤ)) (hcs : s.allPathCandidates G o = .ok cs)
    (split : Key → ℕ → List Key) (m : Scene.PathMethod Key) (v : Scene.ValidOpts) (key : Option Key) :
    s.allPaths G split m o v key = s.tracePaths split m v key ((tx ×ˢ rx) ×ˢ cs) := by
  unfold Scene.allPaths Scene.allTransmitterReceiverPairs
  rw [hcs, h1, h2, items_eq ht, items_eq hr]
  rfl

/-- The key of each path: none without a user's key; otherwise it is the same whatever the path class. -/
theorem C56_paths {Key : Type} (G : GraphLib) (hG : GraphContract G) (s : Scene) (tx rx : PyDict (V2 F))
    (ht : Distinct tx) (hr : Distinct rx) (h1 : s.transmitters = .fromMapping tx)
    (h2 : s.receivers = .fromMapping rx) (o : Scene.Orders) (ho : NonNegative o)
    (split : Key → ℕ → List Key) (key : Option Key) :
    ∃ (cs : List (List ℤ)) (keys : ℕ → Option Key), s.allPathCandidates G o = .ok cs ∧
      (key = none → ∀ n, keys n = none) ∧
      ∀ (m : Scene.PathMethod Key) (v : Scene.ValidOpts) (ts : List Scene.Traced),
        s.allPaths G split m o v key = .ok ts →
        ts.length = tx.length * rx.length * cs.length ∧
        ∀ (i j k : ℕ) (t r : String × V2 F) (c : List ℤ), tx[i]? = some t → rx[j]? = some r → cs[k]? = some c →
          ∃ x, ts[(i * rx.length + j) * cs.length + k]? = some x ∧ x.tx = t.1 ∧ x.rx = r.1 ∧ x.candidate = c ∧
            TracedAs s m v (keys ((i * rx.length + j) * cs.length + k)) t.2 r.2 c x.path x.valid := by
  obtain ⟨cs, hcs, hc⟩ := orders_candidates G hG s o ho
  refine ⟨cs, fun n => keyAt split n key, hcs, ?_, ?_⟩
  · rintro rfl n; exact keyAt_none split n
  · intro m v ts hts
    rw [allPaths_eq G s tx rx ht hr h1 h2 o cs hcs split m v key, tracePaths_ok] at hts
    obtain ⟨hl, hturn⟩ := hts
    have hlen : ((tx ×ˢ rx) ×ˢ cs).length = tx.length * rx.length * cs.length := by
      simp [List.length_product]
    refine ⟨hl.trans hlen, ?_⟩
    intro i j k t r c hi hj hk
    have hp := product_get (tx ×ˢ rx) cs (i * rx.length + j) k (t, r) c (product_get tx rx i j t r hi hj) hk
    have hlt : (i * rx.length + j) * cs.length + k < ts.length := by
      rw [hl]; exact (List.getElem?_eq_some_iff.mp hp).1
    obtain ⟨e1, e2, e3, os, e4, e5, e6⟩ := hturn _ _ _ hp (List.getElem?_eq_getElem hlt)
    have hos := interacting_eq s c (hc c (List.mem_of_getElem? hk))
    simp only at e4
    rw [hos] at e4
    cases e4
    exact ⟨_, List.getElem?_eq_getElem hlt, e1, e2, e3, e5, e6⟩

/-- Non-vacuity: a scene with two transmitters, one receiver and one wall, and paths of one or two bounces. -/
example := C56_paths refLib refLib_contract
  (sceneOf [("a", ⟨0, 1⟩), ("b", ⟨0, 2⟩)] [("c", ⟨1, 1⟩)] [.wall ⟨0, 0⟩ ⟨1, 0⟩, .wall ⟨0, 3⟩ ⟨1, 3⟩]) _ _
  (by simp [Distinct, finPoints]) (by simp [Distinct, finPoints]) rfl rfl { minOrder := 1, maxOrder := 2 }
  (by simp [NonNegative]) KeyTerm.split (some .user)

/-- **C56.** The traversal only fails if some path cannot be traced or checked. -/
theorem C56_total {Key : Type} (G : GraphLib) (hG : GraphContract G) (s : Scene) (hs : IsScene s)
    (o : Scene.Orders) (ho : NonNegative o) (split : Key → ℕ → List Key) (key : Option Key)
    (m : Scene.PathMethod Key) (v : Scene.ValidOpts)
    (hm : ∀ k t r c, IsCandidate s.objects.length c → ∃ path valid, TracedAs s m v k t r c path valid) :
    ∃ ts, s.allPaths G split m o v key = .ok ts := by
  obtain ⟨⟨tx, ht, h1⟩, ⟨rx, hr, h2⟩⟩ := hs
  obtain ⟨cs, hcs, hc⟩ := orders_candidates G hG s o ho
  rw [allPaths_eq G s tx rx ht hr h1 h2 o cs hcs split m v key]
  have gen : ∀ (l : List (((String × V2 F) × (String × V2 F)) × List ℤ)) (key : Option Key),
      (∀ e ∈ l, IsCandidate s.objects.length e.2) → ∃ ts, s.tracePaths split m v key l = .ok ts := by
    intro l
    induction l with
    | nil => intro key _; exact ⟨[], rfl⟩
    | cons e l ih =>
      obtain ⟨⟨⟨tk, t⟩, ⟨rk, r⟩⟩, c⟩ := e
      intro key hl
      have hcc := hl _ (List.mem_cons_self ..)
      obtain ⟨path, valid, p1, p2⟩ := hm (Scene.splitKey split key).2 t r c hcc
      obtain ⟨ts, hts⟩ := ih (Scene.splitKey split key).1 (fun e he => hl e (by simp [he]))
      refine ⟨⟨tk, rk, valid, path, c⟩ :: ts, ?_⟩
      unfold Scene.tracePaths
      rw [interacting_eq s c hcc]
      simp only [bind, Except.bind, p1, validity_eq, p2, hts]
      rfl
  apply gen
  rintro ⟨⟨t, r⟩, c⟩ he
  exact hc c (List.mem_product.mp he).2

/-- The image method traces every candidate of a scene made of walls, and the hard check gives an answer. -/
theorem walls_traced {Key : Type} (s : Scene) (hw : ∀ o ∈ s.objects, ∃ w, o = .wall w) (v : Scene.ValidOpts)
    (hv : Hard v.E v.approx) (k : Option Key) (t r : V2 F) (c : List ℤ) (hc : IsCandidate s.objects.length c) :
    ∃ path valid, TracedAs s (imageMethod Key) v k t r c path valid := by
  have hmem : ∀ o ∈ objectsAt s c, o ∈ s.objects := by
    intro o ho
    obtain ⟨i, -, hi⟩ := List.mem_filterMap.1 ho
    exact List.mem_of_getElem? hi
  have hlen : (objectsAt s c).length = c.length := by
    have h1 := hc.1
    clear hc hmem
    unfold objectsAt
    induction c with
    | nil => rfl
    | cons i c ih =>
      have hi := h1 i (by simp)
      have hi' : i.toNat < s.objects.length := by omega
      rw [List.filterMap_cons, List.getElem?_eq_getElem hi']
      simp only [List.length_cons]
      rw [ih fun j hj => h1 j (by simp [hj])]
  obtain ⟨p, hp⟩ := C28_image_total t r (objectsAt s c) (.inl fun o ho => hw o (hmem o ho))
  obtain ⟨inner, e, hi, -⟩ := C28_image t r _ p hp
  obtain ⟨b, hb, -⟩ := C38_hard p v.E v.approx hv v.kw (s.objects.map Obj.interact) ((objectsAt s c).map Obj.interact)
    c v.tol v.patch (by rw [e]; simp [hi, hlen]) (by simp [hlen])
  exact ⟨p, _, hp, hb⟩

/-- Non-vacuity: the paths of up to two bounces on two walls. -/
example := C56_total refLib refLib_contract
  (sceneOf [("a", ⟨0, 1⟩), ("b", ⟨0, 2⟩)] [("c", ⟨1, 1⟩)] [.wall ⟨0, 0⟩ ⟨1, 0⟩, .wall ⟨0, 3⟩ ⟨1, 3⟩])
  ⟨⟨_, by simp [Distinct, finPoints], rfl⟩, ⟨_, by simp [Distinct, finPoints], rfl⟩⟩ { minOrder := 0, maxOrder := 2 }
  (by simp [NonNegative]) KeyTerm.split none (imageMethod KeyTerm) { E := ⟨false, 0⟩, approx := none, kw := {} }
  (fun k t r c hc => walls_traced _ (by simp [sceneOf, Scene.make, Shape.obj]) _ (.inr ⟨rfl, rfl⟩) k t r c hc)

theorem objectsAt_length (s : Scene) (c : List ℤ) (hc : IsCandidate s.objects.length c) :
    (objectsAt s c).length = c.length := by
  obtain ⟨os, e, hl, _⟩ := C51_interacting s c hc
  rw [interacting_eq s c hc] at e
  cases e
  exact hl

theorem objectsAt_mem (s : Scene) (c : List ℤ) {o : Obj} (h : o ∈ objectsAt s c) : o ∈ s.objects := by
  unfold objectsAt at h
  obtain ⟨i, _, hi⟩ := List.mem_filterMap.mp h
  exact List.mem_of_getElem? hi

/-- **C56.** In a scene made of walls only, the default path class never fails. -/
theorem C56_image_total (G : GraphLib) (hG : GraphContract G) (Key : Type) (s : Scene) (hs : IsScene s)
    (hw : ∀ o ∈ s.objects, ∃ w, o = .wall w) (o : Scene.Orders) (ho : NonNegative o)
    (split : Key → ℕ → List Key) (key : Option Key) (v : Scene.ValidOpts) :
    ∃ ts, s.allPaths G split (imageMethod Key) o v key = .ok ts := by
  apply C56_total G hG s hs o ho
  intro k t r c hc
  have hlen := objectsAt_length s c hc
  have hmem : ∀ x ∈ objectsAt s c, ∃ w, x = .wall w := fun x hx => hw x (objectsAt_mem s c hx)
  obtain ⟨path, hp, hl⟩ : ∃ path, ImagePath.fromTxObjectsRx t (objectsAt s c) r = .ok path ∧
      path.xys.length = (objectsAt s c).length + 2 := by
    generalize objectsAt s c = os at hmem
    cases os with
    | nil => exact ⟨_, rfl, rfl⟩
    | cons a os =>
      have h1 : os.all (fun o' => o'.cls == a.cls) = true := by
        rw [List.all_eq_true]
        intro x hx
        obtain ⟨w, rfl⟩ := hmem x (by simp [hx])
        obtain ⟨w', rfl⟩ := hmem a (by simp)
        rfl
      have h2 : ∀ l : List Obj, (∀ x ∈ l, ∃ w, x = .wall w) → ∃ ws, l.mapM Obj.asWall = some ws ∧ ws.length = l.length := by
        intro l hl
        induction l with
        | nil => exact ⟨[], rfl, rfl⟩
        | cons x l ih =>
          obtain ⟨w, rfl⟩ := hl x (by simp)
          obtain ⟨ws, e, hl'⟩ := ih (fun y hy => hl y (by simp [hy]))
          refine ⟨w :: ws, ?_, by simp [hl']⟩
          rw [List.mapM_cons, e]; rfl
      obtain ⟨ws, e, hl⟩ := h2 (a :: os) hmem
      refine ⟨imagePathCore t ws ((a :: os).map Obj.interact) r, ?_, ?_⟩
      · unfold ImagePath.fromTxObjectsRx
        simp only [h1, if_true, e]
      · have hi : ∀ (p : V2 F) (ws : List Wall), (images p ws).length = ws.length := by
          intro p ws
          induction ws generalizing p with
          | nil => rfl
          | cons w ws ih => simp [images, ih]
        have hb : ∀ l : List (Wall × V2 F), (backward r l).length = l.length := by
          intro l
          induction l with
          | nil => rfl
          | cons x l ih => obtain ⟨w, im⟩ := x; simp [backward, ih]
        unfold imagePathCore
        simp [hb, hi, hl]
  have hv : ∃ valid, path.isValid v.E (s.objects.map Obj.interact) c ((objectsAt s c).map Obj.interact) v.tol
      v.patch v.approx v.kw = .ok valid := by
    have hnl : ¬ (-1 :: c ++ [-1] : List ℤ).length < path.xys.length := by
      simp [hl, hlen]
    unfold Path.isValid Path.intersectsWithObjects
    simp only
    rw [if_neg (fun h => hnl h.2)]
    simp only [bind, Except.bind]
    unfold logicalAll
    split_ifs
    · unfold jnpMin; dsimp only; split_ifs <;> exact ⟨_, rfl⟩
    · exact ⟨_, rfl⟩
  obtain ⟨valid, hvalid⟩ := hv
  exact ⟨path, valid, hp, hvalid⟩

/-! ## C47 — random keys are never reused -/

/-- The running key after `n` splits. -/
def runningKey : ℕ → KeyTerm
  | 0 => .user
  | n + 1 => .child (runningKey n) 0

theorem chainKey_term (n : ℕ) (k : KeyTerm) :
    chainKey KeyTerm.split n (some k) = some (Nat.rec k (fun _ x => .child x 0) n) := by
  induction n generalizing k with
  | zero => rfl
  | succ n ih =>
    show chainKey KeyTerm.split n (some (.child k 0)) = _
    rw [ih]
    congr 1
    clear ih
    induction n with
    | zero => rfl
    | succ n ih => simp only; rw [ih]

theorem runningKey_eq (n : ℕ) : runningKey n = Nat.rec KeyTerm.user (fun _ x => .child x 0) n := by
  induction n with
  | zero => rfl
  | succ n ih => simp only [runningKey, ih]

theorem runningKey_inj : Function.Injective runningKey := by
  intro a b h
  induction a generalizing b with
  | zero => cases b with
    | zero => rfl
    | succ b => cases h
  | succ a ih => cases b with
    | zero => cases h
    | succ b => injection h with h; rw [ih h]

/-- **C47.** There is a sequence of pairwise distinct keys, all derived from the user's key and none of them that key
itself, such that for every scene, path class and validity options, the `n`-th path of `all_paths` is
traced with the `n`-th key. -/
theorem C47_all_paths : ∃ ks : ℕ → KeyTerm, Function.Injective ks ∧ (∀ n, ks n ≠ .user) ∧
    ∀ (G : GraphLib), GraphContract G → ∀ (s : Scene) (tx rx : PyDict (V2 F)), Distinct tx → Distinct rx →
      s.transmitters = .fromMapping tx → s.receivers = .fromMapping rx →
      ∀ (o : Scene.Orders), NonNegative o → ∀ (cs : List (List ℤ)), s.allPathCandidates G o = .ok cs →
      ∀ (m : Scene.PathMethod KeyTerm) (v : Scene.ValidOpts) (ts : List Scene.Traced),
        s.allPaths G KeyTerm.split m o v (some .user) = .ok ts →
        ∀ (n : ℕ) (x : Scene.Traced), ts[n]? = some x → ∃ t r c, (((t, r), c) : ((String × V2 F) × (String × V2 F)) × List ℤ) ∈ (tx ×ˢ rx) ×ˢ cs ∧
          x.tx = t.1 ∧ x.rx = r.1 ∧ x.candidate = c ∧ TracedAs s m v (some (ks n)) t.2 r.2 c x.path x.valid := by
  refine ⟨fun n => .child (runningKey n) 1, ?_, fun n => by simp, ?_⟩
  · intro a b h
    injection h with h
    exact runningKey_inj h
  · intro G hG s tx rx ht hr h1 h2 o ho cs hcs m v ts hts n x hx
    obtain ⟨cs', hcs', hc⟩ := orders_candidates G hG s o ho
    rw [hcs] at hcs'; cases hcs'
    rw [allPaths_eq G s tx rx ht hr h1 h2 o cs hcs, tracePaths_ok] at hts
    obtain ⟨hl, hturn⟩ := hts
    have hlt : n < ((tx ×ˢ rx) ×ˢ cs).length := by rw [← hl]; exact (List.getElem?_eq_some_iff.mp hx).1
    rcases he : ((tx ×ˢ rx) ×ˢ cs)[n] with ⟨⟨t, r⟩, c⟩
    have hget : ((tx ×ˢ rx) ×ˢ cs)[n]? = some ((t, r), c) := by rw [List.getElem?_eq_getElem hlt, he]
    obtain ⟨e1, e2, e3, os, e4, e5, e6⟩ := hturn n _ _ hget hx
    have hmem := List.mem_of_getElem? hget
    have hos := interacting_eq s c (hc c (List.mem_product.mp hmem).2)
    simp only at e4
    rw [hos] at e4
    cases e4
    refine ⟨t, r, c, hmem, e1, e2, e3, ?_, e6⟩
    have : keyAt KeyTerm.split n (some .user) = some (.child (runningKey n) 1) := by
      unfold keyAt
      rw [chainKey_term, runningKey_eq]; rfl
    rw [← this]; exact e5

/-- **C47.** The trials of a minimization use pairwise distinct keys, and the trials of two minimizations with
different keys have no key in common: so all keys of one traversal, trials included, are distinct. -/
theorem C47_trials (many : ℕ) : ∃ trialKeys : KeyTerm → List KeyTerm,
    (∀ k, (trialKeys k).length = many) ∧ (∀ k, (trialKeys k).Nodup) ∧
    (∀ k k' x, x ∈ trialKeys k → x ∈ trialKeys k' → k = k') ∧
    ∀ (M : Minimizer KeyTerm), M.split = KeyTerm.split → ∀ f k n r, minimizeManyRandomUniform M f k n many = .ok r →
      ∃ ts, List.Forall₂ (fun k t => minimize M f (M.uniform k n) = .ok t) (trialKeys k) ts ∧ r ∈ ts := by
  by_cases h : many = 1
  · subst h
    refine ⟨fun k => [k], by simp, by simp, by simp, ?_⟩
    intro M hM f k n r hr
    refine ⟨[r], .cons ?_ .nil, by simp⟩
    unfold minimizeManyRandomUniform at hr
    rw [if_pos rfl] at hr
    exact hr
  · refine ⟨fun k => k.split many, by simp [KeyTerm.split], ?_, ?_, ?_⟩
    · intro k
      apply List.Nodup.map
      · intro a b h; injection h
      · exact List.nodup_range
    · intro k k' x hx hx'
      simp only [KeyTerm.split, List.mem_map] at hx hx'
      obtain ⟨i, _, rfl⟩ := hx
      obtain ⟨j, _, e⟩ := hx'
      injection e with e1 e2
      exact e1.symm
    · intro M hM f k n r hr
      unfold minimizeManyRandomUniform at hr
      rw [if_neg h, hM] at hr
      simp only at hr
      cases ht : (k.split many).mapM (fun k => minimizeRandomUniform M f k n) with
      | error e => rw [ht] at hr; cases hr
      | ok trials =>
        rw [ht] at hr
        refine ⟨trials, (mapM_iff _ _ _).mp ht, ?_⟩
        simp only [bind, Except.bind] at hr
        cases ha : F.argmin (trials.map Prod.snd) with
        | none => rw [ha] at hr; cases hr
        | some i =>
          rw [ha] at hr
          cases hr
          have hlt := F.argmin_lt ha
          simp only [List.length_map] at hlt
          rw [List.getD_eq_getElem?_getD, List.getElem?_eq_getElem hlt]
          exact List.getElem_mem hlt

/-- The keys of one traversal with several trials per path, as in the theorems above, are distinct. -/
example : ∀ ks : ℕ → KeyTerm, Function.Injective ks → ∀ many N,
    ((List.range N).flatMap fun n => (ks n).split many).Nodup := by
  intro ks hks many N
  rw [List.nodup_flatMap]
  constructor
  · intro n _
    exact List.nodup_range.map (fun a b h => by injection h)
  · refine List.Pairwise.imp ?_ List.nodup_range
    intro a b hab x hx hy
    simp only [KeyTerm.split, List.mem_map] at hx hy
    obtain ⟨i, _, rfl⟩ := hx
    obtain ⟨j, _, e⟩ := hy
    injection e with e1 _
    exact hab (hks e1.symm)

/-! ## C57 — valid paths -/

theorem isValid_hard_bool (p : Path) {E : Env} {ap : Option Bool} (h : Hard E ap) (objects : List Interactable)
    (c : List ℤ) (os : List Interactable) (tol patch : F) (kw : ActKw) (x : Truthy)
    (hx : p.isValid E objects c os tol patch ap kw = .ok x) : ∃ b, x = .b b := by
  have hr : resolveApprox E ap = false := by
    rcases h with rfl | ⟨rfl, h⟩
    · rfl
    · exact h
  unfold Path.isValid at hx
  simp only at hx
  cases hi : p.intersectsWithObjects E objects c patch ap kw with
  | error e => rw [hi] at hx; cases hx
  | ok y =>
    rw [hi] at hx
    simp only [bind, Except.bind, logicalAll, hr] at hx
    simp only [pure, Except.pure, Bool.false_eq_true, if_false, Truthy.nanToNum, Except.ok.injEq] at hx
    exact ⟨_, hx.symm⟩

theorem hard_or_soft (E : Env) (ap : Option Bool) : Hard E ap ∨ Soft E ap := by
  unfold Hard Soft
  cases ap with
  | none => cases E.enableApprox <;> simp
  | some b => cases b <;> simp

theorem not_hard_soft {E : Env} {ap : Option Bool} (h : Hard E ap) (h' : Soft E ap) : False := by
  unfold Hard Soft at *
  rcases h with rfl | ⟨rfl, h⟩ <;> simp_all

/-- **C57.** `all_valid_paths` gives, in order, exactly the tuples of `all_paths` whose validity is accepted (true
in hard mode, above one half in approximate mode), and it fails only if `all_paths` does. -/
theorem C57_valid {Key : Type} (G : GraphLib) (s : Scene) (hs : IsScene s) (o : Scene.Orders)
    (split : Key → ℕ → List Key) (key : Option Key) (m : Scene.PathMethod Key) (v : Scene.ValidOpts) :
    s.allValidPaths G split m o v key = (s.allPaths G split m o v key).map fun ts =>
      (ts.filter fun t => decide (Accepted v.E v.approx t.valid)).map fun t => (t.tx, t.rx, t.path, t.candidate) := by
  unfold Scene.allValidPaths
  cases hts : s.allPaths G split m o v key with
  | error e => rfl
  | ok ts =>
    show Scene.keepTrue v.E v.approx ts = .ok _
    have hb : Hard v.E v.approx → ∀ t ∈ ts, ∃ b, t.valid = .b b := by
      intro hh t ht
      obtain ⟨⟨tx, htx, h1⟩, ⟨rx, hrx, h2⟩⟩ := hs
      cases hcs : s.allPathCandidates G o with
      | error e => unfold Scene.allPaths at hts; rw [hcs] at hts; cases hts
      | ok cs =>
        rw [allPaths_eq G s tx rx htx hrx h1 h2 o cs hcs, tracePaths_ok] at hts
        obtain ⟨n, hn, rfl⟩ := List.mem_iff_getElem.mp ht
        have hlt : n < ((tx ×ˢ rx) ×ˢ cs).length := by rw [← hts.1]; exact hn
        obtain ⟨_, _, _, os, _, _, e6⟩ := hts.2 n _ _ (List.getElem?_eq_getElem hlt) (List.getElem?_eq_getElem hn)
        exact isValid_hard_bool _ hh _ _ _ _ _ _ _ e6
    have hit : ∀ t ∈ ts, isTrue v.E v.approx t.valid = .ok (decide (Accepted v.E v.approx t.valid)) := by
      intro t ht
      rcases hard_or_soft v.E v.approx with hh | hh
      · obtain ⟨b, hb⟩ := hb hh t ht
        have hr : resolveApprox v.E v.approx = false := by
          rcases hh with h | ⟨h, h'⟩
          · rw [h]; rfl
          · rw [h]; exact h'
        rw [hb]
        unfold isTrue
        rw [hr]
        simp only [Bool.false_eq_true, if_false]
        congr 1
        have : Accepted v.E v.approx (.b b) ↔ b = true := by
          unfold Accepted Holds
          constructor
          · rintro (⟨_, h⟩ | ⟨h, _⟩)
            · exact h
            · exact absurd h (fun h => not_hard_soft hh h)
          · intro h; exact Or.inl ⟨hh, h⟩
        simp [this]
      · have hr : resolveApprox v.E v.approx = true := by
          rcases hh with h | ⟨h, h'⟩
          · rw [h]; rfl
          · rw [h]; exact h'
        unfold isTrue
        rw [hr]
        simp only [if_true]
        congr 1
        have : Accepted v.E v.approx t.valid ↔ F.lt (1 - 0.5) t.valid.toF = true := by
          have e : (1 : F) - 0.5 = F.fin (1 / 2) := by simp; norm_num
          rw [e]
          unfold Accepted
          constructor
          · rintro (⟨h, _⟩ | ⟨_, h⟩)
            · exact absurd hh (fun h' => not_hard_soft h h')
            · obtain ⟨x, y, hx, hy, hxy⟩ := h
              cases ht' : t.valid.toF with
              | nan => rw [ht'] at hy; cases hy
              | pinf => rfl
              | ninf => rw [ht'] at hy; simp [toEReal] at hx hy; subst hx hy; simp at hxy
              | fin a =>
                rw [ht'] at hy; simp [toEReal] at hx hy; subst hx hy
                rw [F.lt_fin]
                have := EReal.coe_lt_coe_iff.mp (by simpa using hxy : ((1 / 2 : ℝ) : EReal) < (a : EReal))
                simpa using this
          · intro h
            refine Or.inr ⟨hh, ?_⟩
            cases ht' : t.valid.toF with
            | nan => rw [ht'] at h; simp at h
            | pinf => exact ⟨_, _, rfl, rfl, EReal.coe_lt_top _⟩
            | ninf => rw [ht'] at h; cases h
            | fin a =>
              rw [ht', F.lt_fin] at h
              exact ⟨_, _, rfl, rfl, EReal.coe_lt_coe_iff.mpr (by simpa using h)⟩
        by_cases h : F.lt (1 - 0.5) t.valid.toF = true
        · rw [h]; simp [this.mpr h]
        · rw [Bool.not_eq_true] at h
          have h' : ¬ Accepted v.E v.approx t.valid := fun hc => by rw [this.mp hc] at h; cases h
          rw [h]; simp [h']
    clear hb hts
    induction ts with
    | nil => rfl
    | cons t ts ih =>
      unfold Scene.keepTrue
      rw [hit t (by simp), ih (fun x hx => hit x (by simp [hx]))]
      simp only [bind, Except.bind, pure, Except.pure, List.filter_cons]
      by_cases h : Accepted v.E v.approx t.valid <;> simp [h]

end DiffeRT2d.Props
