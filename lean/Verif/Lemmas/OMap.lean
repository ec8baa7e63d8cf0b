import Verif.Spec.OMap
import Verif.Lemmas.Heap

/-! The ordered map a dictionary stands for. -/

namespace Verif

section
variable {K V : Type} [DecidableEq K]

theorem toMap_set (d : Od K V) (k : K) (v : V) : (d.set k v).toMap = d.toMap.set k v := by
  ext1
  · exact Od.keys_set d k v
  · funext j; exact Od.get?_set d k j v

theorem toMap_del {d : Od K V} (hd : d.keys.Nodup) (k : K) :
    (d.del k).toMap = d.toMap.del k := by
  ext1
  · exact Od.keys_del hd k
  · funext j; exact Od.get?_del hd k j

theorem toMap_nil : Od.toMap ([] : Od K V) = OMap.empty := rfl

theorem toMap_values {d : Od K V} (hd : d.keys.Nodup) : d.toMap.values = d.vals := by
  show d.keys.filterMap d.get? = d.vals
  suffices h : ∀ (l : Od K V), (∀ kv ∈ l, kv ∈ d) → (Od.keys l).filterMap d.get? = Od.vals l from
    h d fun _ h => h
  intro l hl
  induction l with
  | nil => rfl
  | cons a t ih =>
    obtain ⟨k, v⟩ := a
    have h1 : d.get? k = some v := Od.get?_of_mem hd (hl _ List.mem_cons_self)
    have h2 := ih fun kv h => hl kv (List.mem_cons_of_mem _ h)
    show (k :: Od.keys t).filterMap d.get? = v :: Od.vals t
    rw [List.filterMap_cons, h1, h2]

theorem toMap_items {d : Od K V} (hd : d.keys.Nodup) : d.toMap.items = d := by
  show d.keys.filterMap (fun k => (d.get? k).map fun v => (k, v)) = d
  suffices h : ∀ (l : Od K V), (∀ kv ∈ l, kv ∈ d) →
      (Od.keys l).filterMap (fun k => (d.get? k).map fun v => (k, v)) = l from h d fun _ h => h
  intro l hl
  induction l with
  | nil => rfl
  | cons a t ih =>
    obtain ⟨k, v⟩ := a
    have h1 : d.get? k = some v := Od.get?_of_mem hd (hl _ List.mem_cons_self)
    have h2 := ih fun kv h => hl kv (List.mem_cons_of_mem _ h)
    show (k :: Od.keys t).filterMap _ = (k, v) :: t
    rw [List.filterMap_cons, h1, h2]
    rfl

end
end Verif
