import Verif.Props.C50

/-!
# C99: locked methods of a tree are atomic

Threads work on data shared by all (the tree) inside of locked methods, and on data of their own outside.
Whatever the schedule, the outcome is that of running the locked methods one after the other, each without
interruption: no update is lost, and no thread sees half of the work of another one.
-/

namespace Verif.Locking

/-! ### Specification -/

/-- Work done by a thread: in its locked method of that number (counting only the outermost ones), or outside. -/
abbrev Act := Tid × Option Nat

section
variable {A D : Type}

/-- What work does: inside it may read and write the data of the tree and of the thread, outside of the thread only.
The functions are arbitrary; that a thread does different work at different times is a matter of its own data. -/
def Act.apply (f : Tid → A × D → A × D) (g : Tid → A → A) (s : (Tid → A) × D) (a : Act) : (Tid → A) × D :=
  match a.2 with
  | some _ => (put s.1 a.1 (f a.1 (s.1 a.1, s.2)).1, (f a.1 (s.1 a.1, s.2)).2)
  | none => (put s.1 a.1 (g a.1 (s.1 a.1)), s.2)

/-- Work done in the given order. -/
def outcome (f : Tid → A × D → A × D) (g : Tid → A → A) (s : (Tid → A) × D) (l : List Act) : (Tid → A) × D :=
  l.foldl (Act.apply f g) s

end

/-- Is the thread inside of a locked method of the tree? -/
def busy (σ : State) (t : Tid) (r : Root) : Bool :=
  (σ.thr t).stack.any fun | .release r' _ => r' == r | _ => false

/-- Is work the next the thread does? -/
def works (σ : State) (t : Tid) : Bool :=
  match (σ.thr t).stack with
  | .cmd .work :: _ => !(σ.thr t).raising
  | _ => false

/-- A run observed: the state, how many (outermost) locked methods of the tree each thread has begun, and the work done
so far. -/
structure Run where
  σ : State
  n : Tid → Nat := fun _ => 0
  done : List Act := []

/-- The next step of a thread; nothing happens if it is blocked or finished. -/
def Run.next (r : Root) (x : Run) (t : Tid) : Run :=
  match step t x.σ with
  | none => x
  | some σ' =>
    { σ := σ'
      n := if busy x.σ t r = false ∧ busy σ' t r = true then put x.n t (x.n t + 1) else x.n
      done := x.done ++ if works x.σ t then [(t, if busy x.σ t r then some (x.n t) else none)] else [] }

/-- The run for a schedule. -/
def observe (r : Root) (σ : State) (ts : List Tid) : Run := ts.foldl (Run.next r) { σ := σ }

/-- A piece of work outside, or the work of one locked method. -/
def OneSection (b : List Act) : Prop :=
  (∃ t, b = [(t, none)]) ∨ ∃ t i, b ≠ [] ∧ ∀ a ∈ b, a = (t, some i)

/-- The locked methods in these pieces. -/
def sections (bs : List (List Act)) : List (Tid × Nat) :=
  bs.filterMap fun b => b.head?.bind fun a => a.2.map fun i => (a.1, i)

/-! ### Lemmas -/

theorem busy_iff {σ : State} {t : Tid} {r : Root} : busy σ t r = true ↔ Busy σ t r := by
  unfold busy Busy
  rw [List.any_eq_true]
  constructor
  · rintro ⟨i, hi, h⟩
    cases i with
    | release r' l => exact ⟨l, (beq_iff_eq.mp h) ▸ hi⟩
    | _ => cases h
  · rintro ⟨l, h⟩
    exact ⟨_, h, beq_self_eq_true r⟩

/-- A step is a step of one thread. -/
theorem step_thr {σ σ' : State} {t u : Tid} (h : step t σ = some σ') (hu : u ≠ t) : σ'.thr u = σ.thr u := by
  unfold step at h
  simp only at h
  repeat' split at h
  all_goals first
    | (cases h; done)
    | (injection h with h; subst h; exact put_other _ _ hu)

theorem step_busy {σ σ' : State} {t u : Tid} {r : Root} (h : step t σ = some σ') (hu : u ≠ t) :
    busy σ' u r = busy σ u r := by
  unfold busy; rw [step_thr h hu]

/-- Work neither enters nor leaves a locked method. -/
theorem step_works {σ σ' : State} {t : Tid} {r : Root} (h : step t σ = some σ') (hw : works σ t = true) :
    busy σ' t r = busy σ t r := by
  unfold works at hw
  split at hw
  · rename_i s hs
    have hr : (σ.thr t).raising = false := by simpa using hw
    unfold step at h
    simp only [hs, hr, Bool.false_eq_true, if_false] at h
    injection h with h
    subst h
    unfold busy
    show List.any (put σ.thr t _ t).stack _ = _
    rw [put_same, hs, List.any_cons]
    rfl
  · cases hw

section
variable {A D : Type} {f : Tid → A × D → A × D} {g : Tid → A → A}

theorem outcome_append (s : (Tid → A) × D) (l l' : List Act) :
    outcome f g s (l ++ l') = outcome f g (outcome f g s l) l' := List.foldl_append

theorem put_comm {α : Type} (L : Nat → α) {t u : Nat} (h : t ≠ u) (a b : α) :
    put (put L t a) u b = put (put L u b) t a := by
  funext j
  unfold put
  by_cases h1 : j = u
  · subst h1; rw [if_pos rfl, if_neg (Ne.symm h), if_pos rfl]
  · rw [if_neg h1, if_neg h1]

/-- Work outside commutes with work of other threads. -/
theorem apply_comm (s : (Tid → A) × D) {t : Tid} {a : Act} (h : a.1 ≠ t) :
    Act.apply f g (Act.apply f g s a) (t, none) = Act.apply f g (Act.apply f g s (t, none)) a := by
  obtain ⟨u, i⟩ := a
  cases i <;> simp only [Act.apply, put_other _ _ h, put_other _ _ (Ne.symm h), put_comm _ h]

theorem outcome_comm {t : Tid} : ∀ (l : List Act) (s : (Tid → A) × D), (∀ a ∈ l, a.1 ≠ t) →
    Act.apply f g (outcome f g s l) (t, none) = outcome f g (Act.apply f g s (t, none)) l
  | [], _, _ => rfl
  | a :: l, s, h => by
    show Act.apply f g (outcome f g (Act.apply f g s a) l) (t, none) =
      outcome f g (Act.apply f g (Act.apply f g s (t, none)) a) l
    rw [outcome_comm l _ fun b hb => h b (List.mem_cons_of_mem _ hb), apply_comm s (h a List.mem_cons_self)]

end

theorem sections_append (bs cs : List (List Act)) : sections (bs ++ cs) = sections bs ++ sections cs :=
  List.filterMap_append

/-- The run so far, with the work ordered: finished locked methods and work outside, then what was done in the locked
method that is running. -/
structure Ordered (r : Root) (x : Run) (bs : List (List Act)) (p : List Act) : Prop where
  same : ∀ {A D : Type} (f : Tid → A × D → A × D) (g : Tid → A → A) s,
    outcome f g s (bs.flatten ++ p) = outcome f g s x.done
  order : ∀ t, (bs.flatten ++ p).filter (fun a => a.1 = t) = x.done.filter fun a => a.1 = t
  one : ∀ b ∈ bs, OneSection b
  nodup : (sections bs).Nodup
  below : ∀ t i, (t, i) ∈ sections bs → i ≤ x.n t ∧ (busy x.σ t r = true → i < x.n t)
  running : ∀ a ∈ p, busy x.σ a.1 r = true ∧ a.2 = some (x.n a.1)

theorem Ordered.next {r : Root} {x : Run} {bs : List (List Act)} {p : List Act} (h : Ordered r x bs p) (t : Tid)
    (hex : ∀ u v, busy x.σ u r = true → busy x.σ v r = true → u = v)
    (hex' : ∀ u v, busy (x.next r t).σ u r = true → busy (x.next r t).σ v r = true → u = v) :
    ∃ bs' p', Ordered r (x.next r t) bs' p' := by
  unfold Run.next at hex' ⊢
  cases hst : step t x.σ with
  | none => exact ⟨bs, p, h⟩
  | some σ' =>
    rw [hst] at hex'
    simp only at hex' ⊢
    have hoth : ∀ u, u ≠ t → busy σ' u r = busy x.σ u r := fun u hu => step_busy hst hu
    by_cases hw : works x.σ t = true
    · have hb := step_works (r := r) hst hw
      have hall : ∀ u, busy σ' u r = busy x.σ u r := fun u => by
        by_cases hu : u = t
        · rw [hu, hb]
        · exact hoth u hu
      have hn : ¬ (busy x.σ t r = false ∧ busy σ' t r = true) := by
        rw [hb]; rintro ⟨h1, h2⟩; rw [h1] at h2; cases h2
      rw [if_neg hn, if_pos hw]
      cases hbt : busy x.σ t r with
      | true =>
        refine ⟨bs, p ++ [(t, some (x.n t))], ⟨fun f g s => ?_, fun u => ?_, h.one, h.nodup, fun u i hi => ?_, fun a ha => ?_⟩⟩
        · simp only [if_true]
          rw [← List.append_assoc, outcome_append, h.same, ← outcome_append]
        · simp only [if_true]
          rw [← List.append_assoc, List.filter_append, h.order, ← List.filter_append]
        · rw [hall]; exact h.below u i hi
        · rw [hall]
          rcases List.mem_append.mp ha with ha | ha
          · exact h.running a ha
          · rw [List.mem_singleton.mp ha]; exact ⟨hbt, rfl⟩
      | false =>
        have hne : ∀ a ∈ p, a.1 ≠ t := fun a ha e => by
          have := (h.running a ha).1
          rw [e, hbt] at this; cases this
        refine ⟨bs ++ [[(t, none)]], p, ⟨fun f g s => ?_, fun u => ?_, fun b hb => ?_, ?_, fun u i hi => ?_, fun a ha => ?_⟩⟩
        · simp only [Bool.false_eq_true, if_false]
          rw [List.flatten_append, outcome_append, outcome_append, outcome_append (l := x.done), ← h.same, outcome_append]
          exact (outcome_comm p _ hne).symm
        · simp only [Bool.false_eq_true, if_false]
          rw [List.filter_append (l₁ := x.done), ← h.order, List.flatten_append, List.filter_append, List.filter_append,
            List.filter_append, List.append_assoc, List.append_assoc]
          congr 1
          by_cases hu : t = u
          · have : p.filter (fun a => a.1 = u) = [] := List.filter_eq_nil_iff.mpr fun a ha => by
              simpa using fun e => hne a ha (e.trans hu.symm)
            rw [this]; simp
          · simp [hu]
        · rcases List.mem_append.mp hb with hb | hb
          · exact h.one b hb
          · exact .inl ⟨t, List.mem_singleton.mp hb⟩
        · rw [sections_append, show sections [[((t, none) : Act)]] = [] from rfl, List.append_nil]; exact h.nodup
        · rw [sections_append, show sections [[((t, none) : Act)]] = [] from rfl, List.append_nil] at hi
          rw [hall]; exact h.below u i hi
        · rw [hall]; exact h.running a ha
    · rw [if_neg hw, List.append_nil]
      cases hbt : busy x.σ t r with
      | false =>
        cases hbt' : busy σ' t r with
        | false =>
          have hall : ∀ u, busy σ' u r = busy x.σ u r := fun u => by
            by_cases hu : u = t
            · rw [hu, hbt, hbt']
            · exact hoth u hu
          rw [if_neg (by simp)]
          exact ⟨bs, p, ⟨h.same, h.order, h.one, h.nodup, fun u i hi => by rw [hall]; exact h.below u i hi,
            fun a ha => by rw [hall]; exact h.running a ha⟩⟩
        | true =>
          rw [if_pos ⟨rfl, rfl⟩]
          have hp : p = [] := List.eq_nil_iff_forall_not_mem.mpr fun a ha => by
            have hb := (h.running a ha).1
            have hne : a.1 ≠ t := fun e => by rw [e, hbt] at hb; cases hb
            exact hne (hex' a.1 t (by rw [hoth _ hne]; exact hb) hbt')
          subst hp
          refine ⟨bs, [], ⟨h.same, h.order, h.one, h.nodup, fun u i hi => ?_, fun a ha => nomatch ha⟩⟩
          have hx := h.below u i hi
          by_cases hu : u = t
          · subst hu
            show i ≤ put x.n u _ u ∧ (_ → i < put x.n u _ u)
            rw [put_same]
            exact ⟨Nat.le_succ_of_le hx.1, fun _ => Nat.lt_succ_of_le hx.1⟩
          · show i ≤ put x.n t _ u ∧ (_ → i < put x.n t _ u)
            rw [put_other _ _ hu, hoth u hu]
            exact hx
      | true =>
        rw [if_neg (by simp)]
        cases hbt' : busy σ' t r with
        | true =>
          have hall : ∀ u, busy σ' u r = busy x.σ u r := fun u => by
            by_cases hu : u = t
            · rw [hu, hbt, hbt']
            · exact hoth u hu
          exact ⟨bs, p, ⟨h.same, h.order, h.one, h.nodup, fun u i hi => by rw [hall]; exact h.below u i hi,
            fun a ha => by rw [hall]; exact h.running a ha⟩⟩
        | false =>
          have hpt : ∀ a ∈ p, a = (t, some (x.n t)) := fun a ha => by
            obtain ⟨h1, h2⟩ := h.running a ha
            have e : a.1 = t := hex _ _ h1 hbt
            exact Prod.ext e (by rw [h2, e])
          have hbelow : ∀ u i, (u, i) ∈ sections bs → i ≤ x.n u ∧ (busy σ' u r = true → i < x.n u) := fun u i hi => by
            have hx := h.below u i hi
            by_cases hu : u = t
            · subst hu; exact ⟨hx.1, fun _ => hx.2 hbt⟩
            · rw [hoth u hu]; exact hx
          cases p with
          | nil => exact ⟨bs, [], ⟨h.same, h.order, h.one, h.nodup, hbelow, fun a ha => nomatch ha⟩⟩
          | cons a p =>
            have ha := hpt a List.mem_cons_self
            have hsec : sections [a :: p] = [(t, x.n t)] := by rw [ha]; rfl
            refine ⟨bs ++ [a :: p], [], ⟨fun f g s => ?_, fun u => ?_, fun b hb => ?_, ?_, fun u i hi => ?_,
              fun a ha => nomatch ha⟩⟩
            · rw [List.flatten_append, List.append_nil, List.flatten_singleton]; exact h.same f g s
            · rw [List.flatten_append, List.append_nil, List.flatten_singleton]; exact h.order u
            · rcases List.mem_append.mp hb with hb | hb
              · exact h.one b hb
              · rw [List.mem_singleton.mp hb]
                exact .inr ⟨t, x.n t, List.cons_ne_nil _ _, hpt⟩
            · rw [sections_append, hsec]
              refine List.nodup_append.mpr ⟨h.nodup, by simp, fun c hc d hd e => ?_⟩
              rw [List.mem_singleton.mp hd] at e
              subst e
              exact Nat.lt_irrefl _ ((h.below t _ hc).2 hbt)
            · rw [sections_append, hsec] at hi
              rcases List.mem_append.mp hi with hi | hi
              · exact hbelow u i hi
              · obtain ⟨rfl, rfl⟩ := Prod.mk.inj (List.mem_singleton.mp hi)
                exact ⟨Nat.le_refl _, fun e => by rw [hbt'] at e; cases e⟩

theorem observe_append (r : Root) (σ : State) (ts us : List Tid) :
    observe r σ (ts ++ us) = us.foldl (Run.next r) (observe r σ ts) := List.foldl_append

theorem Run.next_steps {r : Root} {σ₀ : State} {x : Run} (h : Steps σ₀ x.σ) (t : Tid) : Steps σ₀ (x.next r t).σ := by
  unfold Run.next
  cases hst : step t x.σ with
  | none => exact h
  | some σ' => exact .tail h ⟨t, hst⟩

theorem observe_steps (r : Root) (σ : State) : ∀ ts, Steps σ (observe r σ ts).σ := by
  intro ts
  suffices H : ∀ (ts : List Tid) (x : Run), Steps σ x.σ → Steps σ (ts.foldl (Run.next r) x).σ from H ts _ (.refl _)
  intro ts
  induction ts with
  | nil => exact fun _ h => h
  | cons t ts ih => exact fun x h => ih _ (Run.next_steps h t)

/-- **C99.** From any moment on at which the root has its lock and everybody who is entering or inside uses it: the work
can be ordered so that each locked method, or what was left of it at that moment, is a piece of its own (one piece per
locked method, so without interruption), each thread does its work in the order it did, and the outcome for the tree
and for every thread is the same, whatever the work is. -/
theorem c99_settled {σ₀ σ₁ : State} (h₀ : Start σ₀) (h₁ : Steps σ₀ σ₁) {r : Root} {l : LockId} (hset : Settled r l σ₁)
    (ts : List Tid) :
    ∃ bs : List (List Act), (∀ b ∈ bs, OneSection b) ∧ (sections bs).Nodup ∧
      (∀ t, bs.flatten.filter (fun a => a.1 = t) = (observe r σ₁ ts).done.filter fun a => a.1 = t) ∧
      ∀ {A D : Type} (f : Tid → A × D → A × D) (g : Tid → A → A) s,
        outcome f g s bs.flatten = outcome f g s (observe r σ₁ ts).done := by
  have hex : ∀ {x : Run}, Steps σ₁ x.σ → ∀ u v, busy x.σ u r = true → busy x.σ v r = true → u = v :=
    fun h u v hu hv => c50_settled h₀ h₁ hset h (busy_iff.mp hu) (busy_iff.mp hv)
  have main : ∀ (ts : List Tid) (x : Run), Steps σ₁ x.σ → (∃ bs p, Ordered r x bs p) →
      ∃ bs p, Ordered r (ts.foldl (Run.next r) x) bs p := by
    intro ts
    induction ts with
    | nil => exact fun _ _ h => h
    | cons t ts ih =>
      intro x hs ⟨bs, p, h⟩
      exact ih _ (Run.next_steps hs t) (h.next t (hex hs) (hex (Run.next_steps hs t)))
  obtain ⟨bs, p, h⟩ := main ts { σ := σ₁ } (.refl _) ⟨[], [], ⟨fun _ _ _ => rfl, fun _ => rfl,
    fun _ h => (nomatch h), List.nodup_nil, fun _ _ h => (nomatch h), fun _ h => (nomatch h)⟩⟩
  change Ordered r (observe r σ₁ ts) bs p at h
  cases p with
  | nil =>
    refine ⟨bs, h.one, h.nodup, fun t => ?_, fun f g s => ?_⟩
    · have := h.order t; rwa [List.append_nil] at this
    · have := h.same f g s; rwa [List.append_nil] at this
  | cons a p =>
    obtain ⟨hb, ha⟩ := h.running a List.mem_cons_self
    have hpt : ∀ c ∈ a :: p, c = (a.1, some ((observe r σ₁ ts).n a.1)) := fun c hc => by
      obtain ⟨h1, h2⟩ := h.running c hc
      have e : c.1 = a.1 := hex (observe_steps r σ₁ ts) _ _ h1 hb
      exact Prod.ext e (by rw [h2, e])
    have hsec : sections [a :: p] = [(a.1, (observe r σ₁ ts).n a.1)] := by
      show (((a :: p).head?.bind fun a => a.2.map fun i => (a.1, i)) |>.toList) = _
      simp [ha]
    refine ⟨bs ++ [a :: p], fun b hb' => ?_, ?_, fun t => ?_, fun f g s => ?_⟩
    · rcases List.mem_append.mp hb' with hb' | hb'
      · exact h.one b hb'
      · rw [List.mem_singleton.mp hb']
        exact .inr ⟨_, _, List.cons_ne_nil _ _, hpt⟩
    · rw [sections_append, hsec]
      refine List.nodup_append.mpr ⟨h.nodup, by simp, fun c hc d hd e => ?_⟩
      rw [List.mem_singleton.mp hd] at e
      subst e
      exact Nat.lt_irrefl _ ((h.below _ _ hc).2 hb)
    · rw [List.flatten_append, List.flatten_singleton]; exact h.order t
    · rw [List.flatten_append, List.flatten_singleton]; exact h.same f g s

/-- **C99.** Threads that work on a tree inside of locked methods only, in any schedule, if the root has its lock when they
start: the work can be ordered so that each locked method is a piece of its own (one piece per locked method, so without
interruption), each thread does its work in the order it did, and the outcome for the tree and for every thread is the
same, whatever the work is.  Missing: the lock may be created while several threads enter (`c99_refuted`). -/
theorem c99_serial_partial {σ₀ : State} (h₀ : Start σ₀) {r : Root} {l : LockId} (hl : σ₀.treelock r = some l)
    (ts : List Tid) :
    ∃ bs : List (List Act), (∀ b ∈ bs, OneSection b) ∧ (sections bs).Nodup ∧
      (∀ t, bs.flatten.filter (fun a => a.1 = t) = (observe r σ₀ ts).done.filter fun a => a.1 = t) ∧
      ∀ {A D : Type} (f : Tid → A × D → A × D) (g : Tid → A → A) s,
        outcome f g s bs.flatten = outcome f g s (observe r σ₀ ts).done :=
  c99_settled h₀ (.refl _) (h₀.settled hl) ts

/-! ### Instances -/

/-- Reading a counter, and writing what was read plus one, in turns. -/
def counting (_ : Tid) (x : (Nat × Nat) × Nat) : (Nat × Nat) × Nat :=
  if x.1.1 % 2 = 0 then ((x.1.1 + 1, x.2), x.2) else ((x.1.1 + 1, x.1.2), x.1.2 + 1)

/-- Two threads count in a locked method, on a tree that has its lock. -/
def counters : State :=
  start [[.locked 0 [.work, .work], .work], [.locked 0 [.work, .work]]] (fun r => if r = 0 then some 0 else none) 1

theorem counters_start : Start counters := start_start _ _ _ fun r l h => by
  by_cases e : r = 0
  · rw [if_pos e] at h; cases h; exact Nat.zero_lt_one
  · rw [if_neg e] at h; cases h

/-- Both threads want in at once; the second waits until the first is done. -/
def c99Schedule : List Tid := [0, 1, 0, 1, 0, 1, 0, 1, 0, 1, 1, 0, 1, 1]

example := c99_serial_partial counters_start (r := 0) rfl c99Schedule

example : (observe 0 counters c99Schedule).done =
    [(0, some 1), (0, some 1), (1, some 1), (0, none), (1, some 1)] ∧
    (outcome counting (fun _ x => x) (fun _ => (0, 0), 0) (observe 0 counters c99Schedule).done).2 = 2 := by
  decide +kernel

/-- The same on a tree without a lock. -/
def uncounted : State := start [[.locked 0 [.work, .work]], [.locked 0 [.work, .work]]] (fun _ => none) 0

/-- C99 fails while the lock is being created: both threads come in, finish, and one of the updates is lost; done one
after the other, in either order, the two methods count to two. -/
theorem c99_refuted : ∃ ts, Start uncounted ∧ (∀ t, ((observe 0 uncounted ts).σ.thr t).stack = []) ∧
    (outcome counting (fun _ x => x) (fun _ => (0, 0), 0) (observe 0 uncounted ts).done).2 = 1 ∧
    (outcome counting (fun _ x => x) (fun _ => (0, 0), 0) [(0, some 1), (0, some 1), (1, some 1), (1, some 1)]).2 = 2 ∧
    (outcome counting (fun _ x => x) (fun _ => (0, 0), 0) [(1, some 1), (1, some 1), (0, some 1), (0, some 1)]).2 = 2 := by
  refine ⟨[0, 1, 0, 1, 0, 1, 0, 1, 0, 1, 0, 1], start_start _ _ _ (fun _ _ h => nomatch h), fun t => ?_, ?_⟩
  · rcases t with _ | _ | t
    · decide +kernel
    · decide +kernel
    · rfl
  · decide +kernel

end Verif.Locking
