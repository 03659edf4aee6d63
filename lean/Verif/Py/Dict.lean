/-!
# Python dictionaries as association lists

`Dict κ V` lists the items in insertion order.  Assigning to an existing key keeps its position (Python >= 3.7).
-/
namespace Verif

/-- A Python `dict` with keys of type `κ`. -/
abbrev Dict (κ V : Type) := List (κ × V)

namespace Dict
variable {κ V : Type} [DecidableEq κ]

/-- `d.get(k)`; `none` stands for a missing key. -/
def get? (d : Dict κ V) (k : κ) : Option V :=
  match d with
  | [] => none
  | (k', v) :: rest => if k' = k then some v else get? rest k

/-- `d[k] = v`. -/
def set (d : Dict κ V) (k : κ) (v : V) : Dict κ V :=
  match d with
  | [] => [(k, v)]
  | (k', v') :: rest => if k' = k then (k', v) :: rest else (k', v') :: set rest k v

/-- `d.pop(k, None)` as far as the dictionary is concerned. -/
def del (d : Dict κ V) (k : κ) : Dict κ V :=
  match d with
  | [] => []
  | (k', v') :: rest => if k' = k then rest else (k', v') :: del rest k

/-- `list(d.keys())`. -/
def keys (d : Dict κ V) : List κ := d.map Prod.fst

@[simp] theorem get?_nil (k : κ) : get? ([] : Dict κ V) k = none := rfl

theorem get?_cons (k' : κ) (v : V) (rest : Dict κ V) (k : κ) :
    get? ((k', v) :: rest) k = if k' = k then some v else get? rest k := rfl

theorem get?_set (d : Dict κ V) (k : κ) (v : V) (k' : κ) :
    get? (set d k v) k' = if k = k' then some v else get? d k' := by
  induction d with
  | nil => simp [set, get?]
  | cons p rest ih =>
    obtain ⟨a, b⟩ := p
    by_cases h : a = k
    · subst h
      by_cases h' : a = k' <;> simp [set, get?, h']
    · by_cases h' : a = k'
      · subst h'
        have : ¬ k = a := fun e => h e.symm
        simp [set, get?, h, this]
      · simp [set, get?, h, h', ih]

@[simp] theorem get?_set_self (d : Dict κ V) (k : κ) (v : V) : get? (set d k v) k = some v := by simp [get?_set]

theorem get?_set_ne (d : Dict κ V) (k : κ) (v : V) (k' : κ) (h : k ≠ k') : get? (set d k v) k' = get? d k' := by
  simp [get?_set, h]

theorem get?_eq_none_iff (d : Dict κ V) (k : κ) : get? d k = none ↔ k ∉ keys d := by
  induction d with
  | nil => simp [get?, keys]
  | cons p rest ih =>
    obtain ⟨a, b⟩ := p
    simp only [get?, keys, List.map_cons, List.mem_cons, not_or]
    split
    · next h => simp [h]
    · next h => simp [ih, keys]; exact fun _ e => h e.symm

theorem mem_keys_iff (d : Dict κ V) (k : κ) : k ∈ keys d ↔ ∃ v, get? d k = some v := by
  have := get?_eq_none_iff d k
  cases h : get? d k with
  | none => simp [h] at this; simp [this]
  | some v => simp [h] at this; simp [this]

theorem mem_of_get? (d : Dict κ V) (k : κ) (v : V) (h : get? d k = some v) : (k, v) ∈ d := by
  induction d with
  | nil => simp [get?] at h
  | cons p rest ih =>
    obtain ⟨a, b⟩ := p
    simp only [get?] at h
    split at h
    · next e => simp at h; simp [← e, h]
    · exact List.mem_cons_of_mem _ (ih h)

theorem get?_of_mem (d : Dict κ V) (hd : (keys d).Nodup) (k : κ) (v : V) (h : (k, v) ∈ d) : get? d k = some v := by
  induction d with
  | nil => simp at h
  | cons p rest ih =>
    obtain ⟨a, b⟩ := p
    simp only [keys, List.map_cons, List.nodup_cons] at hd
    rcases List.mem_cons.mp h with e | h'
    · simp at e; simp [get?, e]
    · have : a ≠ k := by
        intro e; subst e
        exact hd.1 (List.mem_map.mpr ⟨_, h', rfl⟩)
      simp [get?, this, ih hd.2 h']

theorem keys_set (d : Dict κ V) (k : κ) (v : V) :
    keys (set d k v) = if k ∈ keys d then keys d else keys d ++ [k] := by
  induction d with
  | nil => simp [set, keys]
  | cons p rest ih =>
    obtain ⟨a, b⟩ := p
    simp only [set]
    by_cases h : a = k
    · simp [h, keys]
    · have h' : ¬ k = a := fun e => h e.symm
      simp only [h, if_false, keys, List.map_cons, List.mem_cons, h', false_or]
      simp only [keys] at ih
      rw [ih]; split <;> simp_all

theorem nodup_keys_set (d : Dict κ V) (k : κ) (v : V) (h : (keys d).Nodup) : (keys (set d k v)).Nodup := by
  rw [keys_set]; split
  · exact h
  · rename_i hk
    rw [List.nodup_append]
    refine ⟨h, by simp, ?_⟩
    intro a ha b hb e
    simp at hb; subst hb; subst e; exact hk ha

theorem get?_del (d : Dict κ V) (hd : (keys d).Nodup) (k k' : κ) :
    get? (del d k) k' = if k = k' then none else get? d k' := by
  induction d with
  | nil => simp [del, get?]
  | cons p rest ih =>
    obtain ⟨a, b⟩ := p
    simp only [keys, List.map_cons, List.nodup_cons] at hd
    simp only [del]
    by_cases h : a = k
    · subst h
      by_cases h' : a = k'
      · subst h'; simp [(get?_eq_none_iff rest a).mpr hd.1]
      · simp [get?, h']
    · by_cases h' : a = k'
      · subst h'
        have : ¬ k = a := fun e => h e.symm
        simp [get?, h, this]
      · simp [get?, h, h', ih hd.2]

theorem keys_del (d : Dict κ V) (k : κ) : keys (del d k) = (keys d).erase k := by
  induction d with
  | nil => simp [del, keys]
  | cons p rest ih =>
    obtain ⟨a, b⟩ := p
    by_cases h : a = k
    · simp [del, h, keys]
    · simp only [del, h, if_false, keys, List.map_cons]
      rw [List.erase_cons_tail (by simpa using h)]
      simp only [keys] at ih; rw [ih]

theorem nodup_keys_del (d : Dict κ V) (k : κ) (h : (keys d).Nodup) : (keys (del d k)).Nodup := by
  rw [keys_del]; exact h.erase k

end Dict
end Verif
