import Verif.Lemmas.RefuseRefine
import Verif.Props.C02
import Verif.Props.C31
import Verif.Sample

/-!
# C65: nodes with `Reference` are ordered dictionaries that may refuse nodes

`Node` and `AttributedNode` are not covered by C01, because `Reference` can make assignments and
deletions fail.  Under every history of mapping operations they return what ordered maps return, or
an assignment or deletion of a node is refused and changes no contents.
-/

namespace Verif

/-- C65, what is true of it: results and contents are those of ordered dictionaries that may refuse
nodes.  Values that are no nodes, and nodes with `Reference` that have no children, are never
refused by `Reference`; see `Spec/Refuse.lean`. -/
theorem c65_refines_partial {E : Env} (hE : NoFactory E) (hd : 0 < E.depth) (ops : List Op) (h : RefMapHistory E ops {}) :
    ∃ s, AllowsAll E ops {} (execAll E ops {}).1 s ∧ (execAll E ops {}).2.nobj = s.n ∧
      ∀ o, o < (execAll E ops {}).2.nobj → (execAll E ops {}).2.omap o = s.map o := by
  obtain ⟨s, h1, h2⟩ := execAll_ref hE hd ops RefRel.empty h
  exact ⟨s, h1, h2.nobj, fun o ho => h2.map o (h2.nobj ▸ ho)⟩

/-- C65, what is true of it: an operation other than `update` and `clear` that raises leaves the
contents of all nodes as they were. -/
theorem c65_refused_partial {E : Env} {s s' : MapSpec} {op : Op} {e : Exc} (h : Allows E s op (.error e) s')
    (hu : ∀ o kvs, op ≠ .update o kvs) (hc : ∀ o, op ≠ .clear o) (hn : ∀ c n p, op ≠ .new c n p)
    (ht : op.target.isSome = true) : s' = s := by
  have asg : ∀ {o k v x}, Assigns E o k v s x s' → (∃ e, x = .error e) → s' = s := by
    rintro o k v x h ⟨e, rfl⟩
    cases h <;> rfl
  have dlt : ∀ {o k x}, Deletes E o k s x s' → (∃ e, x = .error e) → s' = s := by
    rintro o k x h ⟨e, rfl⟩
    cases h <;> rfl
  have fails : ∀ {α : Type} {x : Except Exc α} {f : α → Res}, x.map f = .error e → ∃ e, x = .error e := by
    intro α x f h
    cases x with
    | ok a => cases h
    | error e => exact ⟨e, rfl⟩
  generalize hx : (Except.error e : Except Exc Res) = x at h
  cases h with
  | plain op' a b c d e f g =>
    cases op
    case get o k => simp only [MapSpec.run]; split <;> rfl
    case set => exact absurd rfl (a _ _ _)
    case del => exact absurd rfl (b _ _)
    case setdefault => exact absurd rfl (c _ _ _)
    case pop => exact absurd rfl (d _ _ _)
    case popitem => exact absurd rfl (e _)
    case update => exact absurd rfl (f _ _)
    case clear => exact absurd rfl (g _)
    case new => exact absurd rfl (hn _ _ _)
    all_goals first | rfl | cases ht
  | set h => exact asg h (fails hx.symm)
  | del h => exact dlt h (fails hx.symm)
  | setdefault_there h => rfl
  | setdefault_new h h' => exact asg h' (fails hx.symm)
  | pop_there h h' h'' => exact dlt h' (fails hx.symm)
  | pop_kept h h' h'' => cases hx
  | pop_default h => rfl
  | pop_missing h => rfl
  | popitem h h' => exact dlt h' (fails hx.symm)
  | popitem_empty h => rfl
  | update h => exact absurd rfl (hu _ _)
  | clear h => exact absurd rfl (hc _)

/-- The classes `Node` and `AttributedNode`. -/
theorem fullNode_refMap : RefMapClass fullNode := ⟨by decide, .inr (by decide)⟩

/-- A node under two keys: after one of them was deleted, the other cannot be. -/
def c65Ops : List Op := [.new 2 .none none, .new 2 .none none, .set 0 ka (.node 1), .set 0 kb (.node 1), .del 0 ka]

theorem c65_keys {k : Key} (hk : k = ka ∨ k = kb) : KeyFor (sampleEnv.cls 2) k := by
  intro _
  rcases hk with rfl | rfl
  · exact ⟨_, rfl, by decide⟩
  · exact ⟨_, rfl, by decide⟩

theorem c65_sample (ops : List Op) (h : ∀ s : MapSpec, s.n = 2 → s.cls 0 = 2 → RefMapHistory sampleEnv ops s) :
    RefMapHistory sampleEnv (c65Ops ++ ops) {} := by
  refine ⟨.inl ⟨2, .none, none, rfl, fullNode_refMap, by decide⟩, .inl ⟨2, .none, none, rfl, fullNode_refMap, by decide⟩, ?_⟩
  refine ⟨.inr ⟨0, [ka], rfl, by decide, fun k hk => ?_⟩, .inr ⟨0, [kb], rfl, by decide, fun k hk => ?_⟩,
    .inr ⟨0, [ka], rfl, by decide, fun k hk => ?_⟩, h _ rfl rfl⟩
  · exact c65_keys (.inl (by simpa using hk))
  · exact c65_keys (.inr (by simpa using hk))
  · exact c65_keys (.inl (by simpa using hk))

/-- A meaningful history to which C65 applies, in which an assignment, a deletion and a refusal occur. -/
example : RefMapHistory sampleEnv (c65Ops ++ [.del 0 kb]) {} ∧
    (execAll sampleEnv (c65Ops ++ [.del 0 kb]) {}).1.getLast? = some (.error (.key (.uuid (some 2)))) :=
  ⟨c65_sample _ fun s hn hc => ⟨.inr ⟨0, [kb], rfl, by omega, fun k hk => by
    rw [hc]; exact c65_keys (.inr (by simpa using hk))⟩, trivial⟩, by decide +kernel⟩

/-- C65 is false: `pop` with a default gives the default although the key is there, and leaves it
there, because the refusal is a `KeyError`. -/
theorem c65_refuted : ∃ ops : List Op, RefMapHistory sampleEnv (ops ++ [.pop 0 kb (some (.data .none))]) {} ∧
    ((execAll sampleEnv ops {}).2.omap 0).val kb = some (.node 1) ∧
    (execAll sampleEnv (ops ++ [.pop 0 kb (some (.data .none))]) {}).1.getLast? = some (.ok (.val (.data .none))) ∧
    ((execAll sampleEnv (ops ++ [.pop 0 kb (some (.data .none))]) {}).2.omap 0).val kb = some (.node 1) :=
  ⟨c65Ops, c65_sample _ fun s hn hc => ⟨.inr ⟨0, [kb], rfl, by omega, fun k hk => by
    rw [hc]; exact c65_keys (.inr (by simpa using hk))⟩, trivial⟩, by decide +kernel, by decide +kernel, by decide +kernel⟩

/-! ### With `Cache` -/

theorem mayRefuse_uncached {E : Env} {s : MapSpec} {o : Oid} {v : Val} (h : MayRefuse E.uncached s o v) :
    MayRefuse E s o v := by
  obtain ⟨h1, c, h2, h3⟩ := h
  exact ⟨(mem_uncached (by simp)).mp h1, c, h2, fun h => h3 ⟨h.1, (mem_uncached (by simp)).mpr h.2.1, h.2.2⟩⟩

theorem assigns_uncached {E : Env} {o : Oid} {k : Key} {v : Val} {s s' : MapSpec} {x : Except Exc Unit}
    (h : Assigns E.uncached o k v s x s') : Assigns E o k v s x s' := by
  cases h with
  | done h => exact .done (by rw [← h]; exact (refuses_uncached _ v).symm)
  | invalid m h => exact .invalid m (by rw [← h]; exact (refuses_uncached _ v).symm)
  | refused e h => exact .refused e (mayRefuse_uncached h)

theorem deletes_uncached {E : Env} {o : Oid} {k : Key} {s s' : MapSpec} {x : Except Exc Unit}
    (h : Deletes E.uncached o k s x s') : Deletes E o k s x s' := by
  cases h with
  | done h => exact .done h
  | missing h => exact .missing h
  | refused e v h h' => exact .refused e v h ⟨(mem_uncached (by simp)).mp h'.1, h'.2⟩

theorem assignsAll_uncached {E : Env} {o : Oid} {kvs : List (Key × Val)} {s s' : MapSpec} {x : Except Exc Unit}
    (h : AssignsAll E.uncached o kvs s x s') : AssignsAll E o kvs s x s' := by
  induction h with
  | nil s => exact .nil s
  | step h _ ih => exact .step (assigns_uncached h) ih
  | stop h => exact .stop (assigns_uncached h)

theorem deletesAll_uncached {E : Env} {o : Oid} {ks : List Key} {s s' : MapSpec} {x : Except Exc Unit}
    (h : DeletesAll E.uncached o ks s x s') : DeletesAll E o ks s x s' := by
  induction h with
  | nil s => exact .nil s
  | step h _ ih => exact .step (deletes_uncached h) ih
  | stop h => exact .stop (deletes_uncached h)

theorem allows_uncached {E : Env} {s s' : MapSpec} {op : Op} {x : Except Exc Res}
    (h : Allows E.uncached s op x s') : Allows E s op x s' := by
  cases h with
  | plain _ h1 h2 h3 h4 h5 h6 h7 => rw [refOf_uncached]; exact .plain op h1 h2 h3 h4 h5 h6 h7
  | set h => exact .set (assigns_uncached h)
  | del h => exact .del (deletes_uncached h)
  | setdefault_there h => exact .setdefault_there h
  | setdefault_new h h' => exact .setdefault_new h (assigns_uncached h')
  | pop_there h h' h'' => exact .pop_there h (deletes_uncached h') h''
  | pop_kept h h' h'' => exact .pop_kept h (deletes_uncached h') h''
  | pop_default h => exact .pop_default h
  | pop_missing h => exact .pop_missing h
  | popitem h h' => exact .popitem h (deletes_uncached h')
  | popitem_empty h => exact .popitem_empty h
  | update h => exact .update (assignsAll_uncached h)
  | clear h => exact .clear (deletesAll_uncached h)

theorem allowsAll_uncached {E : Env} {s s' : MapSpec} {ops : List Op} {xs : List (Except Exc Res)}
    (h : AllowsAll E.uncached ops s xs s') : AllowsAll E ops s xs s' := by
  induction h with
  | nil s => exact .nil s
  | step h _ ih => exact .step (allows_uncached h) ih

/-- C65, what is true of it, with `Cache` to the right of `Reference` in some of the classes: the classes
without their `Cache` are such classes as above, and the operations are given only nodes that exist. -/
theorem c65_cached_partial {E : Env} (hE : NoFactory E) (hd : 0 < E.depth) (hs : ∀ c, CacheSafe (E.cls c))
    (ops : List Op) (h : RefMapHistory E.uncached ops {}) (hf : FitsAll E ops {}) :
    ∃ s, AllowsAll E ops {} (execAll E ops {}).1 s ∧ (execAll E ops {}).2.nobj = s.n ∧
      ∀ o, o < (execAll E ops {}).2.nobj → (execAll E ops {}).2.omap o = s.map o := by
  obtain ⟨s, h1, h2, h3⟩ := c65_refines_partial (E := E.uncached)
    (fun c hc => hE c ((mem_uncached (by simp)).mp hc)) hd ops h
  obtain ⟨e1, e2⟩ := c31_all_partial E hs ops hf
  rw [e1] at h1
  rw [e2] at h2 h3
  exact ⟨s, allowsAll_uncached h1, h2, h3⟩

/-- `Node` with a `Cache` in front of its storage. -/
def cachedFullNode : ClassDef :=
  { fullNode with bhvs := [.nodeChildValidate, .nodespaces, .adopt, .attributes, .reference, .order,
      .asAttrAccess, .defaultInit, .nodify, .cache, .odictStorage] }

/-- A program with that class and one for its attributes. -/
def cachedFullEnv : Env := { cls := fun c => if c = fullNode.attrsFactory then nodeAttributes else cachedFullNode }

/-- A node under two keys, read and read again. -/
def c65CachedOps : List Op :=
  [.new 2 .none none, .new 2 .none none, .set 0 ka (.node 1), .get 0 ka, .set 0 kb (.node 1), .get 0 kb, .del 0 ka,
   .get 0 ka, .del 0 kb, .get 0 kb]

example : NoFactory cachedFullEnv ∧ (∀ c, CacheSafe (cachedFullEnv.cls c)) ∧
    RefMapHistory cachedFullEnv.uncached c65CachedOps {} ∧ FitsAll cachedFullEnv c65CachedOps {} ∧
    (execAll cachedFullEnv c65CachedOps {}).1.drop 6 =
      [.ok .unit, .error (.key (.key ka)), .error (.key (.uuid (some 2))), .ok (.val (.node 1))] := by
  have hc : ∀ c, cachedFullEnv.cls c = nodeAttributes ∨ cachedFullEnv.cls c = cachedFullNode := fun c => by
    unfold cachedFullEnv; dsimp only; split
    · exact .inl rfl
    · exact .inr rfl
  have hr : RefMapClass (cachedFullEnv.uncached.cls 2) := ⟨by decide, .inr (by decide)⟩
  have hk : ∀ ks : List Key, (∀ k ∈ ks, k = ka ∨ k = kb) → ∀ k ∈ ks, KeyFor (cachedFullEnv.uncached.cls 2) k :=
    fun ks h k hm _ => by
      rcases h k hm with rfl | rfl
      · exact ⟨_, rfl, by decide⟩
      · exact ⟨_, rfl, by decide⟩
  refine ⟨fun c => ?_, fun c => ?_, ⟨.inl ⟨2, .none, none, rfl, hr, by decide⟩, .inl ⟨2, .none, none, rfl, hr, by decide⟩,
    ?_⟩, fits_of_fitsB (by decide +kernel), by decide +kernel⟩
  · rcases hc c with e | e <;> rw [e] <;> decide
  · rcases hc c with e | e <;> rw [e] <;> exact ⟨by decide, by decide, by decide⟩
  · exact ⟨.inr ⟨0, [ka], rfl, by decide, hk _ (by simp)⟩, .inr ⟨0, [ka], rfl, by decide, hk _ (by simp)⟩,
      .inr ⟨0, [kb], rfl, by decide, hk _ (by simp)⟩, .inr ⟨0, [kb], rfl, by decide, hk _ (by simp)⟩,
      .inr ⟨0, [ka], rfl, by decide, hk _ (by simp)⟩, .inr ⟨0, [ka], rfl, by decide, hk _ (by simp)⟩,
      .inr ⟨0, [kb], rfl, by decide, hk _ (by simp)⟩, .inr ⟨0, [kb], rfl, by decide, hk _ (by simp)⟩, trivial⟩

end Verif
