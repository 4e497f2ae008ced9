import Verif.Props.RoundedTests

/-!
# Lumped chains in double arithmetic

C150 fails for `lump`: the sum of the probabilities of a group can exceed one after rounding, although the probabilities
are doubles with the sum one.
-/

namespace Verif

/-- Five states that move to the sixth one, which moves to them with probabilities that are doubles. -/
def rowsSix : Fin 6 → Fin 6 → ℚ := fun i j =>
  if i = 5 then
    if j = 0 then 1 / 2 else if j = 4 then 1 / 2 - 9 / 2 ^ 54 else if j = 5 then 0 else 3 / 2 ^ 54
  else if j = 5 then 1 else 0

def exSix : MC ℚ := ⟨6, rowsSix, ["a", "b", "c", "d", "e", "f"]⟩

/-- C150. **Violated by `lump`**: the chain is valid, its probabilities are doubles and the partition is lumpable, but in
double arithmetic the probability to move to the first group is larger than one, which the constructor rejects. -/
theorem C150_lumped_rejected :
    exSix.Valid ∧ (∀ i j, double (rowsSix i j) = rowsSix i j) ∧
    Lumpable (fun i j : Fin 6 => rowsSix i j) [[0, 1, 2, 3, 4], [5]] ∧
    lumpableF (Arith.rounded double) (fun i j : Fin 6 => rowsSix i j) [[0, 1, 2, 3, 4], [5]] = true ∧
    ∃ d, lumpF (Arith.rounded double) exSix
      (.list [.list [.int 0, .int 1, .int 2, .int 3, .int 4], .list [.int 5]]) = .ok d ∧
      ∃ i j, d.p i j = 1 + 1 / 2 ^ 52 := by
  have hv : exSix.Valid := by decide +kernel
  have hp : validatePartitions (.list [.list [.int 0, .int 1, .int 2, .int 3, .int 4], .list [.int 5]] : PyVal ℚ)
      exSix.states = .ok [[0, 1, 2, 3, 4], [5]] := by decide +kernel
  have hG : ([[0, 1, 2, 3, 4], [5]] : List (List ℕ)).map (toStates 6) =
      ([[0, 1, 2, 3, 4], [5]] : List (List (Fin 6))) := by decide +kernel
  have hl : Lumpable (fun i j : Fin 6 => rowsSix i j) [[0, 1, 2, 3, 4], [5]] := by
    unfold Lumpable
    decide +kernel
  have hf : lumpableF (Arith.rounded double) (fun i j : Fin 6 => rowsSix i j) [[0, 1, 2, 3, 4], [5]] = true := by
    decide +kernel
  refine ⟨hv, by decide +kernel, hl, hf, ?_⟩
  unfold lumpF
  rw [hp, R.ok_bind, if_neg (by decide)]
  erw [hG]
  unfold mcLumpF
  rw [if_pos (by exact hf)]
  refine ⟨_, rfl, (1 : Fin 2), (0 : Fin 2), ?_⟩
  change matMulF (Arith.rounded double) (matMulF (Arith.rounded double) (groupMeansF (Arith.rounded double)
    ([[0, 1, 2, 3, 4], [5]] : List (List (Fin 6)))) fun i j : Fin 6 => rowsSix i j)
    (indicator ([[0, 1, 2, 3, 4], [5]] : List (List (Fin 6)))) (1 : Fin 2) (0 : Fin 2) = 1 + 1 / 2 ^ 52
  decide +kernel

end Verif
