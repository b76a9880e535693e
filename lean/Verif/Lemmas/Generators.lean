import Verif.Spec.Generators
import Verif.Props.Traversal

/-! # Lemmas on generators -/

namespace DiffeRT2d
open Spec Props Classical

section generic
variable {σ α : Type*} (body : Env → σ → Resume σ α)

theorem after_shift (g : GenObj σ) (es : ℕ → Env) (n : ℕ) :
    g.after body es (n + 1) = ((g.next (body (es 0))).2).after body (fun k => es (k + 1)) n := by
  induction n with
  | zero => rfl
  | succ n ih =>
    show ((g.after body es (n + 1)).next _).2 = _
    rw [ih]; rfl

theorem outcome_succ (g : GenObj σ) (es : ℕ → Env) (n : ℕ) :
    g.outcome body es (n + 1) = ((g.next (body (es 0))).2).outcome body (fun k => es (k + 1)) n := by
  unfold GenObj.outcome
  rw [after_shift]

theorem finished_after (es : ℕ → Env) (n : ℕ) : (GenObj.finished : GenObj σ).after body es n = .finished := by
  induction n with
  | zero => rfl
  | succ n ih => show ((GenObj.after body _ es n).next _).2 = _; rw [ih]; rfl

theorem finished_outcome (es : ℕ → Env) (n : ℕ) :
    (GenObj.finished : GenObj σ).outcome body es n = .stopIteration := by
  unfold GenObj.outcome
  rw [finished_after]; rfl

/-- After anything but an item, only `StopIteration`. -/
theorem outcome_done (g : GenObj σ) (es : ℕ → Env) (n : ℕ) (h : ∀ a, g.outcome body es n ≠ .item a) (k : ℕ) (hk : n < k) :
    g.outcome body es k = .stopIteration := by
  have hf : g.after body es (n + 1) = .finished := by
    show ((g.after body es n).next _).2 = _
    unfold GenObj.outcome at h
    cases hg : g.after body es n with
    | finished => rfl
    | suspended s =>
      rw [hg] at h
      simp only [GenObj.next] at h ⊢
      cases hb : body (es n) s with
      | yield a s' => rw [hb] at h; exact absurd rfl (h a)
      | ret => rfl
      | raise e => rfl
  have : ∀ d, g.after body es (n + 1 + d) = .finished := by
    intro d
    induction d with
    | zero => exact hf
    | succ d ih => show ((g.after body es (n + 1 + d)).next _).2 = _; rw [ih]; rfl
  obtain ⟨d, rfl⟩ := Nat.exists_eq_add_of_lt hk
  unfold GenObj.outcome
  rw [show n + d + 1 = n + 1 + d by omega, this d]; rfl

/-- Two states from which the body does the same give the same outcomes. -/
theorem outcome_congr (s s' : σ) (h : ∀ E, body E s = body E s') (es : ℕ → Env) (n : ℕ) :
    (GenObj.suspended s).outcome body es n = (GenObj.suspended s').outcome body es n := by
  have h1 : ∀ E, (GenObj.suspended s).next (body E) = (GenObj.suspended s').next (body E) := by
    intro E; unfold GenObj.next; simp only [h E]
  cases n with
  | zero => unfold GenObj.outcome; simp only [GenObj.after, h1]
  | succ n => rw [outcome_succ, outcome_succ, h1]

theorem outcome_congr' (s s' : σ) (E : Env) (h : body E s = body E s') (n : ℕ) :
    (GenObj.suspended s).outcome body (fun _ => E) n = (GenObj.suspended s').outcome body (fun _ => E) n := by
  have h1 : (GenObj.suspended s).next (body E) = (GenObj.suspended s').next (body E) := by
    unfold GenObj.next; simp only [h]
  cases n with
  | zero => unfold GenObj.outcome; simp only [GenObj.after, h1]
  | succ n => rw [outcome_succ, outcome_succ, h1]

end generic

theorem chainKey_succ' {Key : Type} (split : Key → ℕ → List Key) (n : ℕ) (k : Option Key) :
    chainKey split (n + 1) k = (Scene.splitKey split (chainKey split n k)).1 := by
  induction n generalizing k with
  | zero => rfl
  | succ n ih =>
    show chainKey split (n + 1) (Scene.splitKey split k).1 = _
    rw [ih]; rfl

theorem chainKey_add {Key : Type} (split : Key → ℕ → List Key) (p i : ℕ) (k : Option Key) :
    chainKey split i (chainKey split p k) = chainKey split (p + i) k := by
  induction i with
  | zero => rfl
  | succ i ih => rw [chainKey_succ', ih, ← chainKey_succ']; rfl

/-- `is_true` decides acceptance, for the values that validity checks give. -/
theorem isTrue_accepted {E : Env} {ap : Option Bool} {z : Truthy} (hb : Hard E ap → ∃ b, z = .b b) :
    isTrue E ap z = .ok (decide (Accepted E ap z)) := by
  rcases hard_or_soft E ap with hh | hh
  · obtain ⟨b, hb⟩ := hb hh
    have hr : resolveApprox E ap = false := by
      rcases hh with h | ⟨h, h'⟩
      · rw [h]; rfl
      · rw [h]; exact h'
    rw [hb]
    unfold isTrue
    rw [hr]
    simp only [Bool.false_eq_true, if_false]
    congr 1
    have : Accepted E ap (.b b) ↔ b = true := by
      unfold Accepted Holds
      constructor
      · rintro (⟨_, h⟩ | ⟨h, _⟩)
        · exact h
        · exact absurd h (fun h => not_hard_soft hh h)
      · intro h; exact Or.inl ⟨hh, h⟩
    simp [this]
  · have hr : resolveApprox E ap = true := by
      rcases hh with h | ⟨h, h'⟩
      · rw [h]; rfl
      · rw [h]; exact h'
    unfold isTrue
    rw [hr]
    simp only [if_true]
    congr 1
    have : Accepted E ap z ↔ F.lt (1 - 0.5) z.toF = true := by
      have e : (1 : F) - 0.5 = F.fin (1 / 2) := by simp; norm_num
      rw [e]
      unfold Accepted
      constructor
      · rintro (⟨h, _⟩ | ⟨_, h⟩)
        · exact absurd hh (fun h' => not_hard_soft h h')
        · obtain ⟨x, y, hx, hy, hxy⟩ := h
          cases ht' : z.toF with
          | nan => rw [ht'] at hy; cases hy
          | pinf => rfl
          | ninf => rw [ht'] at hy; simp [toEReal] at hx hy; subst hx hy; simp at hxy
          | fin a =>
            rw [ht'] at hy; simp [toEReal] at hx hy; subst hx hy
            rw [F.lt_fin]
            have := EReal.coe_lt_coe_iff.mp (by simpa using hxy : ((1 / 2 : ℝ) : EReal) < (a : EReal))
            simpa using this
      · intro h
        refine Or.inr ⟨hh, ?_⟩
        cases ht' : z.toF with
        | nan => rw [ht'] at h; simp at h
        | pinf => exact ⟨_, _, rfl, rfl, EReal.coe_lt_top _⟩
        | ninf => rw [ht'] at h; cases h
        | fin a =>
          rw [ht', F.lt_fin] at h
          exact ⟨_, _, rfl, rfl, EReal.coe_lt_coe_iff.mpr (by simpa using h)⟩
    by_cases h : F.lt (1 - 0.5) z.toF = true
    · rw [h]; simp [this.mpr h]
    · rw [Bool.not_eq_true] at h
      have h' : ¬ Accepted E ap z := fun hc => by rw [this.mp hc] at h; cases h
      rw [h]; simp [h']

section
variable {Key : Type} (s : Scene) (G : GraphLib) (split : Key → ℕ → List Key) (m : Env → Scene.PathMethod Key) (o : Scene.Orders)
  (v : Scene.ValidOpts) (key : Option Key)

theorem traceOne_result (m : Scene.PathMethod Key) (k : Option Key) (t r : String × V2 F) (c : List ℤ)
    (hc : IsCandidate s.objects.length c) :
    s.traceOne split m v k ((t, r), c) = pathResult s m v (Scene.splitKey split k).2 t r c := by
  unfold Scene.traceOne pathResult
  simp only [interacting_eq s c hc, bind, Except.bind, validity_eq]
  cases m.trace (Scene.splitKey split k).2 t.2 (objectsAt s c) r.2 with
  | error e => rfl
  | ok p =>
    simp only
    cases p.isValid v.E (s.objects.map Obj.interact) c ((objectsAt s c).map Obj.interact) v.tol v.patch v.approx v.kw <;> rfl

/-- The eager traversal, one turn at a time. -/
theorem tracePaths_cons (m : Scene.PathMethod Key) (k : Option Key) (e : ((String × V2 F) × (String × V2 F)) × List ℤ) (l : Scene.Todo) :
    s.tracePaths split m v k (e :: l) = (do
      let x ← s.traceOne split m v k e
      let xs ← s.tracePaths split m v (Scene.splitKey split k).1 l
      pure (x :: xs)) := by
  obtain ⟨⟨⟨tk, t⟩, ⟨rk, r⟩⟩, c⟩ := e
  unfold Scene.traceOne
  conv_lhs => unfold Scene.tracePaths
  simp only [bind, Except.bind]
  cases s.getInteractingObjects c with
  | error e => rfl
  | ok os =>
    simp only
    cases m.trace (Scene.splitKey split k).2 t os r with
    | error e => rfl
    | ok p =>
      simp only
      cases s.validity v p c os <;> rfl

/-- The suspended loop: outcomes in terms of the turns. -/
theorem loop_outcome (todo : Scene.Todo) (k : Option Key) (es : ℕ → Env) (n : ℕ)
    (h : ∀ i e, i < n → todo[i]? = some e →
      ∃ x, s.traceOne split (m (es i)) { v with E := es i } (chainKey split i k) e = .ok x) :
    (GenObj.suspended (Scene.AllPathsState.loop k todo)).outcome (s.allPathsBody G split m o v key) es n =
      match todo[n]? with
      | none => .stopIteration
      | some e => seen (s.traceOne split (m (es n)) { v with E := es n } (chainKey split n k) e) := by
  induction todo generalizing k es n with
  | nil =>
    cases n with
    | zero => rfl
    | succ n => rw [outcome_succ]; exact finished_outcome _ _ _
  | cons e todo ih =>
    cases n with
    | zero =>
      show ((GenObj.suspended _).next _).1 = _
      simp only [GenObj.next, Scene.allPathsBody, Scene.allPathsLoop, chainKey, List.getElem?_cons_zero]
      cases s.traceOne split (m (es 0)) { v with E := es 0 } k e <;> rfl
    | succ n =>
      rw [outcome_succ]
      obtain ⟨x, hx⟩ := h 0 e (by omega) rfl
      have hx' : s.traceOne split (m (es 0)) { v with E := es 0 } k e = .ok x := hx
      have : ((GenObj.suspended (Scene.AllPathsState.loop k (e :: todo))).next (s.allPathsBody G split m o v key (es 0))).2 =
          .suspended (.loop (Scene.splitKey split k).1 todo) := by
        simp only [GenObj.next, Scene.allPathsBody, Scene.allPathsLoop, hx']
      rw [this, ih]
      · rfl
      · intro i e' hi he
        exact h (i + 1) e' (by omega) (by simpa using he)

/-- The suspended loop of `all_valid_paths`, in one call of `next`. -/
theorem validLoop_spec (m : Scene.PathMethod Key) (todo : Scene.Todo) (k : Option Key)
    (h : ∀ i e, todo[i]? = some e → ∃ x b, s.traceOne split m v (chainKey split i k) e = .ok x ∧ isTrue v.E v.approx x.valid = .ok b) :
    (∃ q e x, todo[q]? = some e ∧ s.traceOne split m v (chainKey split q k) e = .ok x ∧ isTrue v.E v.approx x.valid = .ok true ∧
      (∀ i e', i < q → todo[i]? = some e' → ∃ y, s.traceOne split m v (chainKey split i k) e' = .ok y ∧
        isTrue v.E v.approx y.valid = .ok false) ∧
      s.allValidLoop split m v k todo = .yield (x.tx, x.rx, x.path, x.candidate) (.loop (chainKey split (q + 1) k) (todo.drop (q + 1)))) ∨
    ((∀ i e', todo[i]? = some e' → ∃ y, s.traceOne split m v (chainKey split i k) e' = .ok y ∧
        isTrue v.E v.approx y.valid = .ok false) ∧
      s.allValidLoop split m v k todo = .ret) := by
  induction todo generalizing k with
  | nil => right; exact ⟨by simp, rfl⟩
  | cons e todo ih =>
    obtain ⟨x, b, hx, hb⟩ := h 0 e rfl
    have hx' : s.traceOne split m v k e = .ok x := hx
    cases b with
    | true =>
      left
      refine ⟨0, e, x, rfl, hx, hb, by intro i e' hi; omega, ?_⟩
      unfold Scene.allValidLoop
      rw [hx']
      simp only [hb]
      rfl
    | false =>
      have hl : s.allValidLoop split m v k (e :: todo) = s.allValidLoop split m v (Scene.splitKey split k).1 todo := by
        conv_lhs => unfold Scene.allValidLoop
        rw [hx']
        simp only [hb]
      rcases ih (Scene.splitKey split k).1 (fun i e' he => h (i + 1) e' (by simpa using he)) with
        ⟨q, e1, x1, h1, h2, h3, h4, h5⟩ | ⟨h4, h5⟩
      · left
        refine ⟨q + 1, e1, x1, by simpa using h1, h2, h3, ?_, ?_⟩
        · intro i e' hi he
          cases i with
          | zero => simp only [List.getElem?_cons_zero, Option.some.injEq] at he; subst he; exact ⟨x, hx, hb⟩
          | succ i => exact h4 i e' (by omega) (by simpa using he)
        · rw [hl, h5]; rfl
      · right
        refine ⟨?_, by rw [hl, h5]⟩
        intro i e' he
        cases i with
        | zero => simp only [List.getElem?_cons_zero, Option.some.injEq] at he; subst he; exact ⟨x, hx, hb⟩
        | succ i => exact h4 i e' (by simpa using he)

/-- The inner loop of `results()`: through the rest of a group. -/
theorem groupLoop_run (m : Scene.PathMethod Key) (f : Scene.PathFun) (t r : V2 F) (kk : String × String) (l1 l2 : Scene.Todo)
    (xs : List Scene.Traced) (acc : F) (k : Option Key) (hlen : xs.length = l1.length)
    (h : ∀ i e x, l1[i]? = some e → xs[i]? = some x → s.traceOne split m v (chainKey split i k) e = .ok x)
    (hk : ∀ x ∈ xs, (x.tx, x.rx) = kk) (hc : ∀ x ∈ xs, IsCandidate s.objects.length x.candidate) :
    s.groupLoop split m v f t r kk acc k (l1 ++ l2) =
      s.groupLoop split m v f t r kk (xs.foldl (fun a x => a + weighted s f t r x) acc) (chainKey split l1.length k) l2 := by
  induction l1 generalizing xs acc k with
  | nil =>
    have : xs = [] := by simpa using hlen
    subst this; rfl
  | cons e l1 ih =>
    match xs, hlen with
    | x :: xs, hlen =>
      have hx : s.traceOne split m v k e = .ok x := h 0 e x rfl rfl
      show s.groupLoop split m v f t r kk acc k (e :: (l1 ++ l2)) = _
      conv_lhs => unfold Scene.groupLoop
      rw [hx]
      simp only [hk x (by simp), if_true, interacting_eq s x.candidate (hc x (by simp)), bind, Except.bind]
      rw [ih xs _ _ (by simpa using hlen) (fun i e' x' he hx' => h (i + 1) e' x' (by simpa using he) (by simpa using hx'))
        (fun y hy => hk y (by simp [hy])) (fun y hy => hc y (by simp [hy]))]
      rfl

/-- The inner loop of `results()`: an exception inside the group or at the opening of the next one. -/
theorem groupLoop_raise (m : Scene.PathMethod Key) (f : Scene.PathFun) (t r : V2 F) (kk : String × String) (l2 : Scene.Todo)
    (acc : F) (k : Option Key) (e) (err : PyErr) (h : s.traceOne split m v k e = .error err) :
    s.groupLoop split m v f t r kk acc k (e :: l2) = .error err := by
  unfold Scene.groupLoop
  rw [h]

theorem groupLoop_next (m : Scene.PathMethod Key) (f : Scene.PathFun) (t r : V2 F) (kk : String × String) (l2 : Scene.Todo)
    (acc : F) (k : Option Key) (e) (x) (h : s.traceOne split m v k e = .ok x) (hk : (x.tx, x.rx) ≠ kk) :
    s.groupLoop split m v f t r kk acc k (e :: l2) = .ok (acc, ⟨.suspended (.loop (Scene.splitKey split k).1 l2), some x⟩) := by
  unfold Scene.groupLoop
  rw [h]
  simp only [hk, if_false]

/-- The eager traversal succeeds exactly when all turns do. -/
theorem tracePaths_get (m : Scene.PathMethod Key) (todo : Scene.Todo) (k : Option Key) (ts : List Scene.Traced)
    (h : s.tracePaths split m v k todo = .ok ts) :
    ts.length = todo.length ∧ ∀ (n : ℕ) e, todo[n]? = some e →
      ∃ x, ts[n]? = some x ∧ s.traceOne split m v (chainKey split n k) e = .ok x := by
  induction todo generalizing k ts with
  | nil => cases h; simp
  | cons e todo ih =>
    rw [tracePaths_cons] at h
    cases hx : s.traceOne split m v k e with
    | error err => rw [hx] at h; cases h
    | ok x =>
      cases hxs : s.tracePaths split m v (Scene.splitKey split k).1 todo with
      | error err => rw [hx, hxs] at h; cases h
      | ok xs =>
        rw [hx, hxs] at h
        cases h
        obtain ⟨h1, h2⟩ := ih _ _ hxs
        refine ⟨by simp [h1], ?_⟩
        intro n e' he
        cases n with
        | zero => simp only [List.getElem?_cons_zero, Option.some.injEq] at he; subst he; exact ⟨x, rfl, hx⟩
        | succ n =>
          obtain ⟨y, hy1, hy2⟩ := h2 n e' (by simpa using he)
          exact ⟨y, by simpa using hy1, hy2⟩

/-- What the eager traversal gives, and where the lazy one starts. -/
theorem allPaths_start (m' : Scene.PathMethod Key) (v' : Scene.ValidOpts) (ts : List Scene.Traced) (h : s.allPaths G split m' o v' key = .ok ts) :
    ∃ cs pairs, s.allPathCandidates G o = .ok cs ∧ s.allTransmitterReceiverPairs = .ok pairs ∧
      s.tracePaths split m' v' key (pairs.flatMap fun pair => cs.map fun c => (pair, c)) = .ok ts := by
  unfold Scene.allPaths at h
  cases hcs : s.allPathCandidates G o with
  | error err => rw [hcs] at h; cases h
  | ok cs =>
    cases hp : s.allTransmitterReceiverPairs with
    | error err => rw [hcs, hp] at h; cases h
    | ok pairs => rw [hcs, hp] at h; exact ⟨cs, pairs, rfl, rfl, h⟩

/-- Lazy and eager `all_valid_paths`, in constant surroundings. -/
theorem valid_eager (E : Env) (todo : Scene.Todo) (k : Option Key) (ts : List Scene.Traced) (ps)
    (h : s.tracePaths split (m E) { v with E := E } k todo = .ok ts) (hp : Scene.keepTrue E v.approx ts = .ok ps) (n : ℕ) :
    (GenObj.suspended (Scene.AllPathsState.loop k todo)).outcome (s.allValidBody G split m o v key) (fun _ => E) n = seenAt ps n := by
  induction todo generalizing k ts ps n with
  | nil =>
    cases h; cases hp
    cases n with
    | zero => rfl
    | succ n => rw [outcome_succ]; exact finished_outcome _ _ _
  | cons e todo ih =>
    rw [tracePaths_cons] at h
    cases hx : s.traceOne split (m E) { v with E := E } k e with
    | error err => rw [hx] at h; cases h
    | ok x =>
      cases hxs : s.tracePaths split (m E) { v with E := E } (Scene.splitKey split k).1 todo with
      | error err => rw [hx, hxs] at h; cases h
      | ok xs =>
        rw [hx, hxs] at h
        cases h
        unfold Scene.keepTrue at hp
        cases hb : isTrue E v.approx x.valid with
        | error err => rw [hb] at hp; cases hp
        | ok b =>
          cases hq : Scene.keepTrue E v.approx xs with
          | error err => rw [hb, hq] at hp; cases hp
          | ok qs =>
            rw [hb, hq] at hp
            cases b with
            | false =>
              cases hp
              simp only [Bool.false_eq_true, if_false]
              rw [← ih _ _ _ hxs hq n]
              apply outcome_congr' _ _ _ E
              simp only [Scene.allValidBody]
              conv_lhs => unfold Scene.allValidLoop
              rw [hx]
              simp only [hb]
            | true =>
              cases hp
              have hb' : s.allValidBody G split m o v key E (.loop k (e :: todo)) =
                  .yield (x.tx, x.rx, x.path, x.candidate) (.loop (Scene.splitKey split k).1 todo) := by
                simp only [Scene.allValidBody]
                unfold Scene.allValidLoop
                rw [hx]
                simp only [hb]
              cases n with
              | zero =>
                show ((GenObj.suspended _).next _).1 = _
                simp only [GenObj.next, hb', seenAt, List.getElem?_cons_zero, if_true]
              | succ n =>
                rw [outcome_succ]
                simp only [GenObj.next, hb']
                rw [ih _ _ _ hxs hq n]
                simp [seenAt]

end

end DiffeRT2d
