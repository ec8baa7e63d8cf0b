import Verif.Props.C01

/-!
# C93: draining and refilling a node

Repeated `popitem()` returns all items, last first, then raises `KeyError`; giving the items back in reverse order
restores the node.
-/

namespace Verif

/-- What a node holds, its class takes. -/
def Taken (ref : ClassId → Val → Option String) (s : MapSpec) : Prop :=
  ∀ o k v, o < s.n → (s.map o).val k = some v → ref (s.cls o) v = none

section spec
variable {ref : ClassId → Val → Option String}

theorem Taken.put {s : MapSpec} (h : Taken ref s) {o : Oid} {m : OMap Key Val}
    (hm : o < s.n → ∀ k v, m.val k = some v → ref (s.cls o) v = none) : Taken ref (s.put o m) := fun p k v hp hv => by
  unfold MapSpec.put at hv hp ⊢
  dsimp only at hv hp ⊢
  split at hv
  · rename_i e
    subst e
    exact hm hp k v hv
  · exact h p k v hp hv

theorem Taken.del {s : MapSpec} (h : Taken ref s) (o : Oid) (k : Key) : Taken ref (s.put o ((s.map o).del k)) :=
  h.put fun hp j v hv => by
    unfold OMap.del at hv
    dsimp only at hv
    split at hv
    · cases hv
    · exact h o j v hp hv

theorem Taken.assign {s : MapSpec} (h : Taken ref s) (o : Oid) (k : Key) (v : Val) :
    Taken ref (MapSpec.assign ref s o k v).2 := by
  unfold MapSpec.assign
  split
  · exact h
  · rename_i hr
    refine h.put fun hp j x hx => ?_
    unfold OMap.set at hx
    dsimp only at hx
    split at hx
    · injection hx with hx
      exact hx ▸ hr
    · exact h o j x hp hx

theorem Taken.assignAll (o : Oid) : ∀ (kvs : List (Key × Val)) {s : MapSpec}, Taken ref s →
    Taken ref (MapSpec.assignAll ref o kvs s).2
  | [], _, h => h
  | (k, v) :: r, s, h => by
    have h1 := h.assign o k v
    unfold MapSpec.assignAll
    split
    · rename_i s' e
      rw [e] at h1
      exact Taken.assignAll o r h1
    · rename_i e
      rw [e] at h1
      exact h1

theorem Taken.run {s : MapSpec} (h : Taken ref s) (op : Op) : Taken ref (s.run ref op).2 := by
  cases op
  case new c n p =>
    intro o k v ho hv
    simp only [MapSpec.run] at ho hv ⊢
    by_cases e : o = s.n
    · rw [if_pos e] at hv
      cases hv
    · rw [if_neg e] at hv ⊢
      exact h o k v (by omega) hv
  case set o k v =>
    have := h.assign o k v
    simp only [MapSpec.run]
    split <;> (rename_i e; rw [e] at this; exact this)
  case setdefault o k v =>
    have := h.assign o k v
    simp only [MapSpec.run]
    split
    · exact h
    · split <;> (rename_i e; rw [e] at this; exact this)
  case update o kvs =>
    have := Taken.assignAll o kvs h
    simp only [MapSpec.run]
    split <;> (rename_i e; rw [e] at this; exact this)
  case clear o => exact h.put fun _ k v hv => nomatch hv
  all_goals
    simp only [MapSpec.run]
    repeat' split
    all_goals first | exact h | exact h.del _ _

theorem Taken.runAll : ∀ (ops : List Op) {s : MapSpec}, Taken ref s → Taken ref (MapSpec.runAll ref ops s).2
  | [], _, h => h
  | op :: r, _, h => Taken.runAll r (h.run op)

theorem specPut_put {s : MapSpec} {o : Oid} {a b : OMap Key Val} : (s.put o a).put o b = s.put o b := by
  unfold MapSpec.put
  congr 1
  funext p
  dsimp only
  split <;> rfl

theorem specPut_same {s : MapSpec} {o : Oid} {a : OMap Key Val} (h : s.map o = a) : s.put o a = s := by
  unfold MapSpec.put
  have : (fun p => if p = o then a else s.map p) = s.map := funext fun p => by
    split
    · rename_i e; rw [e, h]
    · rfl
  rw [this]

theorem map_specPut {s : MapSpec} {o : Oid} {a : OMap Key Val} : (s.put o a).map o = a := if_pos rfl

theorem runAll_popitem (o : Oid) : ∀ (n : Nat) {d : Od Key Val} {s : MapSpec}, d.length = n → (Od.keys d).Nodup →
    s.map o = d.toMap → MapSpec.runAll ref (List.replicate n (.popitem o)) s =
      (d.reverse.map fun kv => .ok (.item kv.1 kv.2), s.put o OMap.empty)
  | 0, d, s, hn, _, hd => by
    obtain rfl := List.length_eq_zero_iff.mp hn
    exact Prod.ext rfl (specPut_same (hd.trans rfl)).symm
  | n + 1, d, s, hn, hnd, hd => by
    obtain ⟨d', a, rfl⟩ : ∃ d' a, d = d' ++ [a] :=
      ⟨d.dropLast, d.getLast (by intro e; rw [e] at hn; cases hn), (List.dropLast_concat_getLast _).symm⟩
    obtain ⟨k, v⟩ := a
    have hk : k ∉ Od.keys d' := fun h => by
      unfold Od.keys at hnd h
      rw [List.map_append, List.nodup_append] at hnd
      exact hnd.2.2 k h k (by simp) rfl
    have hnd' : (Od.keys d').Nodup := by
      unfold Od.keys at hnd ⊢
      rw [List.map_append, List.nodup_append] at hnd
      exact hnd.1
    have hdel : Od.del (d' ++ [(k, v)]) k = d' := by
      clear hn hd hnd hnd'
      induction d' with
      | nil => simp [Od.del]
      | cons b r ih =>
        have hb : b.1 ≠ k := fun e => hk (by simp [Od.keys, e])
        have := ih fun h => hk (List.mem_cons_of_mem _ h)
        simp only [List.cons_append, Od.del, if_neg hb, this]
    have hrun : s.run ref (.popitem o) = (.ok (.item k v), s.put o (Od.toMap d')) := by
      simp only [MapSpec.run]
      rw [hd, toMap_items hnd, List.getLast?_append]
      simp only [List.getLast?_singleton, Option.some_or]
      rw [← toMap_del hnd, hdel]
    rw [List.replicate_succ]
    simp only [MapSpec.runAll]
    rw [hrun, runAll_popitem o n (d := d') (s := s.put o (Od.toMap d')) (by simpa using hn) hnd' map_specPut]
    simp only [List.reverse_append, List.reverse_cons, List.reverse_nil, List.nil_append, List.cons_append, List.map_cons,
      specPut_put]

theorem assignAll_fill (o : Oid) : ∀ (e : Od Key Val) {d : Od Key Val} {s : MapSpec}, (Od.keys (d ++ e)).Nodup →
    s.map o = d.toMap → (∀ kv ∈ e, ref (s.cls o) kv.2 = none) →
    MapSpec.assignAll ref o e s = (.ok (), s.put o (Od.toMap (d ++ e)))
  | [], d, s, _, hd, _ => by
    rw [List.append_nil]
    exact Prod.ext rfl (specPut_same hd).symm
  | (k, v) :: e, d, s, hnd, hd, hr => by
    have hk : k ∉ Od.keys d := fun h => by
      unfold Od.keys at hnd h
      rw [List.map_append, List.nodup_append] at hnd
      exact hnd.2.2 k h k (by simp) rfl
    have hset : Od.set d k v = d ++ [(k, v)] := by
      clear hd hnd
      induction d with
      | nil => rfl
      | cons b r ih =>
        have hb : b.1 ≠ k := fun e => hk (by simp [Od.keys, e])
        have := ih fun h => hk (List.mem_cons_of_mem _ h)
        simp only [List.cons_append, Od.set, if_neg hb, this]
    simp only [MapSpec.assignAll, MapSpec.assign, hr (k, v) List.mem_cons_self]
    rw [hd, ← toMap_set, hset, assignAll_fill o e (d := d ++ [(k, v)]) (by rw [List.append_assoc]; exact hnd) map_specPut
      (fun kv h => hr kv (List.mem_cons_of_mem _ h)), specPut_put, List.append_assoc]
    rfl

theorem runAll_append1 (a b : List Op) (s : MapSpec) : (MapSpec.runAll ref (a ++ b) s).1 =
    (MapSpec.runAll ref a s).1 ++ (MapSpec.runAll ref b (MapSpec.runAll ref a s).2).1 := by
  induction a generalizing s with
  | nil => rfl
  | cons op r ih => exact congrArg (_ :: ·) (ih _)

theorem history_popitem {E : Env} {o : Oid} : ∀ (n : Nat) {s : MapSpec}, o < s.n →
    MapHistory E ref (List.replicate n (.popitem o)) s
  | 0, _, _ => trivial
  | n + 1, s, ho => by
    rw [List.replicate_succ]
    refine ⟨.inr ⟨o, [], rfl, ho, fun _ h => nomatch h⟩, history_popitem n ?_⟩
    simp only [MapSpec.run]
    split <;> exact ho

end spec

/-- **C93.** For every history: as many `popitem()` as a node has items return the items, each once, the last one first.
The next `popitem()` raises `KeyError`, the node is empty, and every other node is as before. -/
theorem c93_drain (E : Env) (hd : 0 < E.depth) (ops : List Op) (h : MapHistory E (refOf E) ops {}) {w : World}
    (hw : w = (execAll E ops {}).2) {o : Oid} (ho : o < w.nobj) {d : List (Key × Val)} (hi : (w.omap o).items = d)
    {out : List (Except Exc Res)} {w' : World}
    (hx : execAll E (List.replicate d.length (.popitem o) ++ [.popitem o, .keys o]) w = (out, w')) :
    out = (d.reverse.map fun kv => .ok (.item kv.1 kv.2)) ++
      [.error (.key (.msg "popitem(): mapping is empty")), .ok (.keys [])] ∧
    w'.nobj = w.nobj ∧ w'.omap o = OMap.empty ∧ ∀ p, p < w.nobj → p ≠ o → w'.omap p = w.omap p := by
  subst hw
  obtain ⟨-, hr⟩ := execAll_pt hd ops Rel.empty h
  have hos := hr.nobj ▸ ho
  have hnd := hr.wf.children_nodup o
  have hd' : d = (execAll E ops {}).2.children o := hi.symm.trans (toMap_items hnd)
  have hm := hr.map o hos
  generalize (execAll E ops {}).2 = w at *
  generalize (MapSpec.runAll (refOf E) ops {}).2 = s at *
  subst hd'
  have hrun := runAll_popitem (ref := refOf E) o _ rfl hnd (s := s) hm.symm
  have hh : MapHistory E (refOf E) (List.replicate (w.children o).length (.popitem o) ++ [.popitem o, .keys o]) s :=
    (mapHistory_append _ _ s).mpr ⟨history_popitem _ hos, by
      rw [hrun]
      exact ⟨.inr ⟨o, [], rfl, hos, fun _ h => nomatch h⟩, .inr ⟨o, [], rfl, by
        simp only [MapSpec.run]
        split <;> exact hos, fun _ h => nomatch h⟩, trivial⟩⟩
  obtain ⟨h1, h2⟩ := execAll_pt hd _ hr hh
  rw [hx] at h1 h2
  rw [runAll_append1, hrun] at h1
  have hend : MapSpec.runAll (refOf E) [.popitem o, .keys o] (s.put o OMap.empty) =
      ([.error (.key (.msg "popitem(): mapping is empty")), .ok (.keys [])], s.put o OMap.empty) := by
    have he : (OMap.empty : OMap Key Val).items.getLast? = none := rfl
    simp only [MapSpec.runAll, MapSpec.run, map_specPut, he]
    rfl
  rw [hend] at h1
  rw [runAll_append, hrun, hend] at h2
  have hn : w'.nobj = w.nobj := h2.nobj.trans hr.nobj.symm
  exact ⟨h1, hn, (h2.map o hos).trans map_specPut, fun p hp hpo => by
    rw [h2.map p (hr.nobj ▸ hp), hr.map p (hr.nobj ▸ hp)]
    exact if_neg hpo⟩

/-- **C93.** Giving the drained items back to the empty node, first one first, is accepted and restores every mapping. -/
theorem c93_refill (E : Env) (hd : 0 < E.depth) (ops : List Op) (h : MapHistory E (refOf E) ops {}) {w : World}
    (hw : w = (execAll E ops {}).2) {o : Oid} (ho : o < w.nobj) {d : List (Key × Val)} (hi : (w.omap o).items = d)
    {out : List (Except Exc Res)} {w' : World}
    (hx : execAll E (List.replicate d.length (.popitem o) ++ [.update o d]) w = (out, w')) :
    out.getLast? = some (.ok .unit) ∧ w'.nobj = w.nobj ∧ ∀ p, p < w.nobj → w'.omap p = w.omap p := by
  subst hw
  obtain ⟨-, hr⟩ := execAll_pt hd ops Rel.empty h
  have hos := hr.nobj ▸ ho
  have hnd := hr.wf.children_nodup o
  have hd' : d = (execAll E ops {}).2.children o := hi.symm.trans (toMap_items hnd)
  have hm := hr.map o hos
  have ht : Taken (refOf E) (MapSpec.runAll (refOf E) ops {}).2 := Taken.runAll ops fun _ _ _ h => absurd h (Nat.not_lt_zero _)
  generalize (execAll E ops {}).2 = w at *
  generalize (MapSpec.runAll (refOf E) ops {}).2 = s at *
  subst hd'
  have hrun := runAll_popitem (ref := refOf E) o _ rfl hnd (s := s) hm.symm
  have hacc : ∀ kv ∈ w.children o, refOf E (s.cls o) kv.2 = none := fun kv hkv =>
    ht o kv.1 kv.2 hos (by rw [← hm]; exact Od.get?_of_mem hnd hkv)
  have hfill := assignAll_fill (ref := refOf E) o (w.children o) (d := []) (s := s.put o OMap.empty) hnd map_specPut hacc
  have hh : MapHistory E (refOf E) (List.replicate (w.children o).length (.popitem o) ++ [.update o (w.children o)]) s :=
    (mapHistory_append _ _ s).mpr ⟨history_popitem _ hos, by
      rw [hrun]
      exact ⟨.inr ⟨o, _, rfl, hos, fun k hk => hr.keys o hos k hk⟩, trivial⟩⟩
  obtain ⟨h1, h2⟩ := execAll_pt hd _ hr hh
  rw [hx] at h1 h2
  rw [runAll_append1, hrun] at h1
  have hend : MapSpec.runAll (refOf E) [.update o (w.children o)] (s.put o OMap.empty) = ([.ok .unit], s) := by
    simp only [MapSpec.runAll, MapSpec.run]
    rw [hfill, List.nil_append, specPut_put, specPut_same (a := Od.toMap (w.children o)) hm.symm]
  rw [hend] at h1
  rw [runAll_append, hrun, hend] at h2
  refine ⟨(congrArg List.getLast? h1).trans List.getLast?_concat, h2.nobj.trans hr.nobj.symm, fun p hp => ?_⟩
  rw [h2.map p (hr.nobj ▸ hp), hr.map p (hr.nobj ▸ hp)]

/-- The history of C01 up to before its `popitem()`, leaving two items. -/
theorem c93Ops_history : MapHistory sampleEnv (refOf sampleEnv) (c01Ops.take 9) {} :=
  ((mapHistory_append (c01Ops.take 9) (c01Ops.drop 9) {}).mp c01Ops_history).1

example : ((execAll sampleEnv (c01Ops.take 9) {}).2.omap 0).items = [(ka, .node 2), (kb, .node 2)] := by decide +kernel

/-- `c93_drain` and `c93_refill` for it. -/
example := c93_drain sampleEnv (by decide) _ c93Ops_history rfl (o := 0) (by decide +kernel) rfl rfl

example := c93_refill sampleEnv (by decide) _ c93Ops_history rfl (o := 0) (by decide +kernel) rfl rfl

example : (execAll sampleEnv [.popitem 0, .popitem 0, .popitem 0, .keys 0, .update 0 [(ka, .node 2), (kb, .node 2)], .items 0]
    (execAll sampleEnv (c01Ops.take 9) {}).2).1 =
    [.ok (.item kb (.node 2)), .ok (.item ka (.node 2)), .error (.key (.msg "popitem(): mapping is empty")), .ok (.keys []),
      .ok .unit, .ok (.items [(ka, .node 2), (kb, .node 2)])] := by decide +kernel

end Verif
