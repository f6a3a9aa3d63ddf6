import Verif.Model.GoMap
/-! # Lemmas on Go maps -/
namespace Visigoth
namespace GoMap
variable {K V : Type} [DecidableEq K]

@[simp] theorem get_nil (k : K) : GoMap.get ([] : GoMap K V) k = none := rfl

theorem get_set (m : GoMap K V) (k k' : K) (v : V) :
    (m.set k v).get k' = if k = k' then some v else m.get k' := by
  induction m with
  | nil => simp [set, get]
  | cons e m ih =>
    obtain ⟨a, b⟩ := e
    simp only [set]
    by_cases h : a = k
    · subst h
      simp only [if_true, get]
      split <;> simp_all
    · rw [if_neg h]
      simp only [get, ih]
      split
      · next h' => subst h'; rw [if_neg (fun e => h e.symm)]
      · rfl

@[simp] theorem get_set_same (m : GoMap K V) (k : K) (v : V) : (m.set k v).get k = some v := by
  rw [get_set, if_pos rfl]

theorem get_set_ne (m : GoMap K V) {k k' : K} (v : V) (h : k ≠ k') : (m.set k v).get k' = m.get k' := by
  rw [get_set, if_neg h]

theorem get_delete (m : GoMap K V) (k k' : K) :
    (m.delete k).get k' = if k = k' then none else m.get k' := by
  induction m with
  | nil => simp [delete, get]
  | cons e m ih =>
    obtain ⟨a, b⟩ := e
    simp only [delete, List.filter_cons]
    by_cases h : a = k
    · subst h
      simp only [decide_true, Bool.not_true, Bool.false_eq_true, if_false]
      rw [show List.filter (fun e => !decide (e.1 = a)) m = delete m a from rfl, ih]
      simp only [get]
      split <;> rfl
    · simp only [h, decide_false, Bool.not_false, if_true]
      rw [show List.filter (fun e => !decide (e.1 = k)) m = delete m k from rfl]
      simp only [get, ih]
      split
      · next h' => subst h'; rw [if_neg (fun e => h e.symm)]
      · rfl

theorem mem_keys_iff (m : GoMap K V) (k : K) : k ∈ m.keys ↔ ∃ v, m.get k = some v := by
  induction m with
  | nil => simp [keys]
  | cons e m ih =>
    obtain ⟨a, b⟩ := e
    simp only [keys, List.map_cons, List.mem_cons, get]
    by_cases h : a = k
    · simp [h]
    · rw [if_neg h, ← ih]
      simp only [keys]
      constructor
      · rintro (h' | h')
        · exact absurd h'.symm h
        · exact h'
      · exact .inr

theorem get_eq_none_iff (m : GoMap K V) (k : K) : m.get k = none ↔ k ∉ m.keys := by
  rw [mem_keys_iff]
  cases m.get k <;> simp

theorem keys_set (m : GoMap K V) (k : K) (v : V) :
    (m.set k v).keys = if k ∈ m.keys then m.keys else m.keys ++ [k] := by
  induction m with
  | nil => simp [set, keys]
  | cons e m ih =>
    obtain ⟨a, b⟩ := e
    simp only [set]
    by_cases h : a = k
    · subst h; simp [keys]
    · rw [if_neg h]
      have : (k ∈ keys ((a, b) :: m)) ↔ k ∈ keys m := by
        simp only [keys, List.map_cons, List.mem_cons]
        constructor
        · rintro (h' | h')
          · exact absurd h'.symm h
          · exact h'
        · exact .inr
      simp only [this]
      have e1 : keys ((a, b) :: GoMap.set m k v) = a :: keys (GoMap.set m k v) := rfl
      have e2 : keys ((a, b) :: m) = a :: keys m := rfl
      rw [e1, e2, ih]
      split <;> simp

theorem nodup_set (m : GoMap K V) (k : K) (v : V) (h : m.keys.Nodup) : (m.set k v).keys.Nodup := by
  rw [keys_set]
  split
  · exact h
  · next hk =>
    rw [List.nodup_append]
    refine ⟨h, by simp, ?_⟩
    intro a ha b hb
    simp at hb; subst hb
    intro he; subst he; exact hk ha

theorem keys_delete (m : GoMap K V) (k : K) :
    (m.delete k).keys = m.keys.filter (fun x => !decide (x = k)) := by
  simp only [delete, keys, List.filter_map]
  rfl

theorem nodup_delete (m : GoMap K V) (k : K) (h : m.keys.Nodup) : (m.delete k).keys.Nodup := by
  rw [keys_delete]
  exact h.filter _

theorem mem_keys_set (m : GoMap K V) (k k' : K) (v : V) :
    k' ∈ (m.set k v).keys ↔ k' = k ∨ k' ∈ m.keys := by
  rw [mem_keys_iff, mem_keys_iff, get_set]
  by_cases h : k = k'
  · simp [h]
  · rw [if_neg h]
    constructor
    · exact .inr
    · rintro (h' | h')
      · exact absurd h'.symm h
      · exact h'

theorem mem_keys_delete (m : GoMap K V) (k k' : K) :
    k' ∈ (m.delete k).keys ↔ k' ≠ k ∧ k' ∈ m.keys := by
  rw [keys_delete, List.mem_filter]
  simp [and_comm]

end GoMap
end Visigoth
