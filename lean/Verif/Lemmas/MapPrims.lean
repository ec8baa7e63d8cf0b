import Verif.Lemmas.ApiGeneric
import Verif.Spec.Mapping

/-! Relations preserved by item access are preserved by the mapping API. -/

namespace Verif

/-- Mapping operations and calls of a class. -/
def Op.mapping : Op → Bool
  | .new .. => true
  | op => op.target.isSome

/-- `R` is respected by item access, iteration and construction. -/
structure MapPrims (E : Env) (R : World → World → Prop) : Prop where
  pre : PreR R
  getitem : ∀ o k, Pres R (getitem E o k)
  iter : ∀ o, Pres R (iter E o)
  setitem : ∀ o k v, Pres R (setitem E o k v)
  delitem : ∀ o k, Pres R (delitem E o k)
  newNode : ∀ c n p, Pres R (newNode E c n p)

section
variable {E : Env} {R : World → World → Prop} (h : MapPrims E R)
include h

theorem MapPrims.mkeys (o : Oid) : Pres R (mkeys E o) :=
  pres_bind h.pre (h.iter o) fun _ => pres_bind h.pre (pres_endIter h.pre _) fun _ =>
    pres_pure h.pre _

theorem MapPrims.mvalues (o : Oid) : Pres R (mvalues E o) :=
  pres_bind h.pre (h.iter o) fun _ => pres_bind h.pre (pres_forM' h.pre (h.getitem o) _) fun _ =>
    pres_bind h.pre (pres_endIter h.pre _) fun _ => pres_pure h.pre _

theorem MapPrims.exec (op : Op) (ho : op.mapping = true) : Pres R (exec E op) := by
  have hR := h.pre
  have hr : ∀ {α : Type} {m : M α} (f : α → Res), Pres R m →
      Pres R (do let x ← m; pure (f x)) := fun f h =>
    pres_bind hR h fun _ => pres_pure hR _
  cases op
  case new c n p => exact hr _ (h.newNode c n p)
  case get o k => exact hr _ (h.getitem o k)
  case set o k v => exact hr (fun _ => .unit) (h.setitem o k v)
  case del o k => exact hr (fun _ => .unit) (h.delitem o k)
  case getD o k d =>
    exact hr _ (pres_catchIf hR (h.getitem o k) fun _ => pres_pure hR _)
  case contains o k =>
    exact hr _ (pres_catchIf hR (pres_bind hR (h.getitem o k) fun _ =>
      pres_pure hR _) fun _ => pres_pure hR _)
  case keys o => exact hr _ (h.mkeys o)
  case values o => exact hr _ (h.mvalues o)
  case items o =>
    exact hr _ (pres_bind hR (h.iter o) fun _ =>
      pres_bind hR (pres_forM' hR (fun k => pres_bind hR (h.getitem o k)
        fun _ => pres_pure hR _) _) fun _ =>
        pres_bind hR (pres_endIter hR _) fun _ => pres_pure hR _)
  case len o => exact hr _ (pres_bind hR (h.mkeys o) fun _ => pres_pure hR _)
  case setdefault o k v =>
    exact hr _ (pres_catchIf hR (h.getitem o k) fun _ =>
      pres_bind hR (h.setitem o k v) fun _ => pres_pure hR _)
  case pop o k d =>
    refine hr _ (pres_catchIf hR (pres_bind hR (h.getitem o k) fun _ =>
      pres_bind hR (h.delitem o k) fun _ => pres_pure hR _) fun e => ?_)
    split
    · exact pres_raise hR _
    · exact pres_pure hR _
  case popitem o =>
    refine hr (fun kv : Key × Val => .item kv.1 kv.2) (pres_bind hR (h.mkeys o) fun ks => ?_)
    split
    · exact pres_raise hR _
    · exact pres_bind hR (h.getitem o _) fun _ =>
        pres_bind hR (h.delitem o _) fun _ => pres_pure hR _
  case update o kvs =>
    exact hr (fun _ => .unit) (show Pres R (mupdate E o kvs) from
      pres_forU hR (f := fun kv : Key × Val => Verif.setitem E o kv.1 kv.2)
        (fun kv => h.setitem o kv.1 kv.2) kvs)
  case clear o =>
    exact hr (fun _ => .unit) (pres_bind hR (h.mkeys o) fun ks =>
      pres_forU hR (h.delitem o) ks)
  all_goals exact nomatch ho

theorem MapPrims.execAll (ops : List Op) (ho : ∀ op ∈ ops, op.mapping = true) (w : World) :
    R w (execAll E ops w).2 := by
  induction ops generalizing w with
  | nil => exact h.pre.refl w
  | cons op r ih =>
    exact h.pre.trans (h.exec op (ho op List.mem_cons_self) w)
      (ih (fun op h => ho op (List.mem_cons_of_mem _ h)) _)

end

end Verif
