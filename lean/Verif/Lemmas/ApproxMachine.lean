import Verif.Lemmas.Approx

/-! The interleaving machine, run by one thread alone, computes the big-step semantics. -/

namespace DiffeRT2d.Approx

theorem put_put (c : Config) (t : ℕ) (a b : Thread) : (c.put t a).put t b = c.put t b := by
  simp only [Config.put, Config.mk.injEq, true_and]
  funext u; by_cases h : u = t <;> simp [h]

theorem put_upd (c : Config) (s : Bool) (o : Option ℕ) (d t : ℕ) (a b : Thread) :
    (⟨s, o, d, (c.put t a).threads⟩ : Config).put t b = (⟨s, o, d, c.threads⟩ : Config).put t b := by
  simp only [Config.put, Config.mk.injEq, true_and]
  funext u; by_cases h : u = t <;> simp [h]

theorem st_eq (s : St) {d : ℕ} (h : s.depth = d) : (⟨s.setting, d⟩ : St) = s := by
  subst h; rfl

theorem put_same (c : Config) (t : ℕ) : c.put t (c.threads t) = c := by
  have : (fun u => if u = t then c.threads t else c.threads u) = c.threads := by
    funext u; by_cases h : u = t <;> simp [h]
  simp only [Config.put, this]

/-- `c` evolves to `c'` by steps of thread `t` alone. -/
def Alone (t : ℕ) (c c' : Config) : Prop := ∃ n, runs c (List.replicate n t) = some c'

theorem Alone.refl (t : ℕ) (c : Config) : Alone t c c := ⟨0, rfl⟩
theorem Alone.trans {t : ℕ} {c d e : Config} (h : Alone t c d) (h' : Alone t d e) : Alone t c e := by
  obtain ⟨n, hn⟩ := h
  obtain ⟨m, hm⟩ := h'
  refine ⟨n + m, ?_⟩
  rw [List.replicate_add, runs_append, hn]; simpa using hm
theorem Alone.one {t : ℕ} {c d : Config} (h : step c t = some d) : Alone t c d :=
  ⟨1, by simp [runs, h]⟩

/-- The lock is not held by anybody else, and its depth is consistent. -/
def LockOK (c : Config) (t : ℕ) : Prop :=
  (c.owner = none ∧ c.depth = 0) ∨ (c.owner = some t ∧ 0 < c.depth)

theorem step_put_put (c : Config) (t : ℕ) (a b : Thread) : (c.put t a).put t b = c.put t b :=
  put_put c t a b

theorem lock_release {c : Config} {t : ℕ} (h : LockOK c t) (b : Bool) :
    ({ c with setting := b, owner := if c.depth + 1 ≤ 1 then none else some t,
              depth := c.depth + 1 - 1 } : Config) = { c with setting := b } := by
  rcases h with ⟨h1, h2⟩ | ⟨h1, h2⟩
  · simp [h1, h2]
  · have : ¬ (c.depth + 1 ≤ 1) := by omega
    rw [if_neg this]; simp [h1]

theorem alone_exec (p : Prog) (c : Config) (t : ℕ) (rest : List Item) (hl : LockOK c t) :
    Alone t (c.put t ⟨.stmt p :: rest, false⟩)
      ({ c with setting := (exec p ⟨c.setting, c.depth⟩).st.setting }.put t
        ⟨rest, (exec p ⟨c.setting, c.depth⟩).raised⟩) := by
  induction p generalizing c rest with
  | skip => exact Alone.one (by simp [step, put_self, put_put, exec])
  | raise => exact Alone.one (by simp [step, put_self, put_put, exec])
  | seq p q ihp ihq =>
    have h1 : Alone t (c.put t ⟨.stmt (.seq p q) :: rest, false⟩)
        (c.put t ⟨.stmt p :: .stmt q :: rest, false⟩) :=
      Alone.one (by simp [step, put_self, put_put])
    have h2 := h1.trans (ihp c (.stmt q :: rest) hl)
    have hd : (exec p ⟨c.setting, c.depth⟩).st.depth = c.depth := exec_depth p _
    simp only [exec]
    cases hr : (exec p ⟨c.setting, c.depth⟩).raised with
    | true =>
      rw [hr] at h2
      simp only [if_true]
      rw [hr]
      exact h2.trans (Alone.one (by simp [step, put_self, put_put]))
    | false =>
      rw [hr] at h2
      simp only [Bool.false_eq_true, if_false]
      have h3 := ihq { c with setting := (exec p ⟨c.setting, c.depth⟩).st.setting } rest hl
      have hst := st_eq _ hd
      simp only [hst] at h3
      exact h2.trans h3
  | set b =>
    have h1 : Alone t (c.put t ⟨.stmt (.set b) :: rest, false⟩)
        (c.put t ⟨.setAcq b :: rest, false⟩) :=
      Alone.one (by simp [step, put_self, put_put])
    have hor : c.owner = none ∨ c.owner = some t := hl.imp (·.1) (·.1)
    have h2 : Alone t (c.put t ⟨.setAcq b :: rest, false⟩)
        ({ c with owner := some t, depth := c.depth + 1 }.put t ⟨.setWr b :: .rel :: rest, false⟩) :=
      Alone.one (by
        simp only [step, put_self, Bool.false_eq_true, if_false, put_owner, put_setting, put_depth, put_upd, hor, if_true])
    have h3 : Alone t ({ c with owner := some t, depth := c.depth + 1 }.put t
        ⟨.setWr b :: .rel :: rest, false⟩)
        ({ c with setting := b, owner := some t, depth := c.depth + 1 }.put t ⟨.rel :: rest, false⟩) :=
      Alone.one (by
        simp only [step, put_self, Bool.false_eq_true, if_false, put_owner, put_setting, put_depth, put_upd])
    refine h1.trans (h2.trans (h3.trans (Alone.one ?_)))
    simp only [step, put_self, Bool.false_eq_true, if_false, exec, put_owner, put_setting, put_depth,
      put_upd]
    exact congrArg (fun d : Config => some (d.put t ⟨rest, false⟩)) (lock_release hl b)
  | withEnable b body ih =>
    have h1 : Alone t (c.put t ⟨.stmt (.withEnable b body) :: rest, false⟩)
        (c.put t ⟨.acq b c.setting body :: rest, false⟩) :=
      Alone.one (by simp [step, put_self, put_put])
    have hor : c.owner = none ∨ c.owner = some t := hl.imp (·.1) (·.1)
    have h2 : Alone t (c.put t ⟨.acq b c.setting body :: rest, false⟩)
        ({ c with owner := some t, depth := c.depth + 1 }.put t
          ⟨.wr b c.setting body :: .rel :: rest, false⟩) :=
      Alone.one (by
        simp only [step, put_self, Bool.false_eq_true, if_false, put_owner, put_setting, put_depth, put_upd, hor, if_true])
    have h3 : Alone t ({ c with owner := some t, depth := c.depth + 1 }.put t
          ⟨.wr b c.setting body :: .rel :: rest, false⟩)
        ({ c with setting := b, owner := some t, depth := c.depth + 1 }.put t
          ⟨.stmt body :: .restore c.setting :: .rel :: rest, false⟩) :=
      Alone.one (by
        simp only [step, put_self, Bool.false_eq_true, if_false, put_owner, put_setting, put_depth, put_upd])
    have h4 := ih { c with setting := b, owner := some t, depth := c.depth + 1 }
      (.restore c.setting :: .rel :: rest) (Or.inr ⟨rfl, by simp⟩)
    refine h1.trans (h2.trans (h3.trans (h4.trans ?_)))
    simp only [exec]
    generalize hr : (exec body ⟨b, c.depth + 1⟩).raised = r
    have h5 : Alone t
        ({ c with setting := (exec body ⟨b, c.depth + 1⟩).st.setting, owner := some t,
                  depth := c.depth + 1 }.put t ⟨.restore c.setting :: .rel :: rest, r⟩)
        ({ c with setting := c.setting, owner := some t, depth := c.depth + 1 }.put t
          ⟨.rel :: rest, r⟩) :=
      Alone.one (by
        cases r <;> simp only [step, put_self, Bool.false_eq_true, if_false, if_true, put_owner,
          put_setting, put_depth, put_upd])
    refine h5.trans (Alone.one ?_)
    have := lock_release hl c.setting
    cases r <;> simp only [step, put_self, Bool.false_eq_true, if_false, if_true, put_owner, put_setting,
      put_depth, put_upd]
    · exact congrArg (fun d : Config => some (d.put t ⟨rest, false⟩)) this
    · exact congrArg (fun d : Config => some (d.put t ⟨rest, true⟩)) this
  | withDisable d body ih =>
    have h1 : Alone t (c.put t ⟨.stmt (.withDisable d body) :: rest, false⟩)
        (c.put t ⟨.acq (!d) c.setting body :: rest, false⟩) :=
      Alone.one (by simp [step, put_self, put_put])
    have hor : c.owner = none ∨ c.owner = some t := hl.imp (·.1) (·.1)
    have h2 : Alone t (c.put t ⟨.acq (!d) c.setting body :: rest, false⟩)
        ({ c with owner := some t, depth := c.depth + 1 }.put t
          ⟨.wr (!d) c.setting body :: .rel :: rest, false⟩) :=
      Alone.one (by
        simp only [step, put_self, Bool.false_eq_true, if_false, put_owner, put_setting, put_depth, put_upd, hor, if_true])
    have h3 : Alone t ({ c with owner := some t, depth := c.depth + 1 }.put t
          ⟨.wr (!d) c.setting body :: .rel :: rest, false⟩)
        ({ c with setting := !d, owner := some t, depth := c.depth + 1 }.put t
          ⟨.stmt body :: .restore c.setting :: .rel :: rest, false⟩) :=
      Alone.one (by
        simp only [step, put_self, Bool.false_eq_true, if_false, put_owner, put_setting, put_depth, put_upd])
    have h4 := ih { c with setting := !d, owner := some t, depth := c.depth + 1 }
      (.restore c.setting :: .rel :: rest) (Or.inr ⟨rfl, by simp⟩)
    refine h1.trans (h2.trans (h3.trans (h4.trans ?_)))
    simp only [exec]
    generalize hr : (exec body ⟨!d, c.depth + 1⟩).raised = r
    have h5 : Alone t
        ({ c with setting := (exec body ⟨!d, c.depth + 1⟩).st.setting, owner := some t,
                  depth := c.depth + 1 }.put t ⟨.restore c.setting :: .rel :: rest, r⟩)
        ({ c with setting := c.setting, owner := some t, depth := c.depth + 1 }.put t
          ⟨.rel :: rest, r⟩) :=
      Alone.one (by
        cases r <;> simp only [step, put_self, Bool.false_eq_true, if_false, if_true, put_owner,
          put_setting, put_depth, put_upd])
    refine h5.trans (Alone.one ?_)
    have := lock_release hl c.setting
    cases r <;> simp only [step, put_self, Bool.false_eq_true, if_false, if_true, put_owner, put_setting,
      put_depth, put_upd]
    · exact congrArg (fun d : Config => some (d.put t ⟨rest, false⟩)) this
    · exact congrArg (fun d : Config => some (d.put t ⟨rest, true⟩)) this
  | read k ih =>
    have h1 : Alone t (c.put t ⟨.stmt (.read k) :: rest, false⟩)
        (c.put t ⟨.stmt (k c.setting) :: rest, false⟩) :=
      Alone.one (by simp [step, put_self, put_put])
    simp only [exec]
    exact h1.trans (ih c.setting c rest hl)
  | tryExcept p h ihp ihh =>
    have h1 : Alone t (c.put t ⟨.stmt (.tryExcept p h) :: rest, false⟩)
        (c.put t ⟨.stmt p :: .handler h :: rest, false⟩) :=
      Alone.one (by simp [step, put_self, put_put])
    have h2 := h1.trans (ihp c (.handler h :: rest) hl)
    have hd : (exec p ⟨c.setting, c.depth⟩).st.depth = c.depth := exec_depth p _
    simp only [exec]
    cases hr : (exec p ⟨c.setting, c.depth⟩).raised with
    | false =>
      rw [hr] at h2
      simp only [Bool.false_eq_true, if_false]
      rw [hr]
      exact h2.trans (Alone.one (by simp [step, put_self, put_put]))
    | true =>
      rw [hr] at h2
      simp only [if_true]
      have h3 := ihh { c with setting := (exec p ⟨c.setting, c.depth⟩).st.setting } rest hl
      have hst := st_eq _ hd
      simp only [hst] at h3
      exact h2.trans ((Alone.one (by simp [step, put_self, put_put])).trans h3)

end DiffeRT2d.Approx
