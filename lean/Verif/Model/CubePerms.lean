import Verif.Model.Np

/-!
# Cube groups

The permutation tables built by `Cube`, `RubiksCube` and `S` in `emlp/groups.py`, and the cube states of
`emlp/datasets.py`.
-/
namespace Verif

/-- The generators of `Cube`, groups.py:360-362. -/
def cubeGens : List (List ℕ) := [[4, 1, 0, 3, 5, 2], [3, 0, 2, 5, 4, 1]]

/-- `pad(permutation)`, groups.py:366-371, for an array of 48 entries (`assert` otherwise): six rows of
nine, with a zero in the middle. -/
def padFaces (p : List ℕ) : List (List ℕ) :=
  (List.range 6).map fun f => (p.drop (8 * f)).take 4 ++ [0] ++ (p.drop (8 * f + 4)).take 4

/-- `unpad(padded_perm)`, groups.py:373-374. -/
def unpadFaces (q : List (List ℕ)) : List ℕ := q.flatMap fun r => r.take 4 ++ r.drop 5

/-- `np.rot90(face.reshape(3,3),1).reshape(9)`: entry `(i,j)` is the old entry `(j,2-i)`. -/
def rot90Face (f : List ℕ) : List ℕ :=
  (List.range 9).map fun t => f.getD (3 * (t % 3) + (2 - t / 3)) 0

/-- `np.roll(l,1)` -/
def roll1 (l : List ℕ) : List ℕ := l.getLastD 0 :: l.dropLast

/-- `q[dst,:k] = q[src,:k]` with index lists `dst`, `src` (the right side is read first). -/
def assignRows (k : ℕ) (dst src : List ℕ) (q : List (List ℕ)) : List (List ℕ) :=
  (dst.zip src).foldl (fun r ds => r.set ds.1 ((q.getD ds.2 []).take k ++ (r.getD ds.1 []).drop k)) q

/-- `Uperm`, groups.py:386-392. -/
def rubiksU : List ℕ :=
  let q := padFaces (List.range 48)
  let q := q.set 0 (rot90Face (q.getD 0 []))
  unpadFaces (assignRows 3 [1, 2, 3, 4] (roll1 [1, 2, 3, 4]) q)

/-- `RotFront`, groups.py:394-397. -/
def rotFront : List ℕ := unpadFaces (assignRows 9 [0, 2, 5, 4] (roll1 [0, 2, 5, 4]) (padFaces (List.range 48)))

/-- `RotBack`, groups.py:398. -/
def rotBack : List ℕ := argsort rotFront

/-- `RotLeft`, groups.py:399-402. -/
def rotLeft : List ℕ := unpadFaces (assignRows 9 [0, 1, 5, 3] (roll1 [0, 1, 5, 3]) (padFaces (List.range 48)))

/-- `RotRight`, groups.py:403. -/
def rotRight : List ℕ := argsort rotLeft

/-- `Fperm`, groups.py:405 -/
def rubiksF : List ℕ := gather rotRight (gather rubiksU rotLeft)
/-- `Rperm`, groups.py:406 -/
def rubiksR : List ℕ := gather rotBack (gather rubiksU rotFront)
/-- `Bperm`, groups.py:407 -/
def rubiksB : List ℕ := gather rotLeft (gather rubiksU rotRight)
/-- `Lperm`, groups.py:408 -/
def rubiksL : List ℕ := gather rotFront (gather rubiksU rotBack)
/-- `Dperm`, groups.py:409 -/
def rubiksD : List ℕ := gather rotRight (gather rotRight (gather rubiksU (gather rotLeft rotLeft)))

/-- The generators of `RubiksCube`, groups.py:410. -/
def rubiksGens : List (List ℕ) := [rubiksU, rubiksF, rubiksR, rubiksB, rubiksL, rubiksD]

/-- The generators of `S(n)`, groups.py:264-267: row `i` is `0,1,...,n-1` with entry `0` set to `i+1` and
then entry `i+1` set to `0`. -/
def symGens (n : ℕ) : List (List ℕ) :=
  (List.range (n - 1)).map fun i => ((List.range n).set 0 (i + 1)).set (i + 1) 0

/-- The colours of `solved_state`, datasets.py:194-196: sticker `s` has the colour of its face. -/
def solvedColors : List ℕ := (List.range 48).map (· / 8)

/-- The colours of the state labelled unsolvable, datasets.py:207-208: face `f` shows the colour of face
`parity_perm[f]`. -/
def parityColors : List ℕ := (List.range 48).map fun s => [5, 3, 4, 1, 2, 0].getD (s / 8) 0

/-- The face colours of the two states of `InvertedCube`, datasets.py:126-129. -/
def cubeSolved : List ℕ := List.range 6
/-- The inverted state, datasets.py:127-129. -/
def cubeParity : List ℕ := [5, 3, 4, 1, 2, 0]

/-- `edge_flip[:,ids] = edge_flip[:,np.roll(ids,i)]` on the columns of a state, given by their colours,
datasets.py:158-177. -/
def swapCols (ids : List ℕ) (i : ℕ) (c : List ℕ) : List ℕ :=
  (ids.zip (ids.rotateRight i)).foldl (fun r ds => r.set ds.1 (c.getD ds.2 0)) c

/-- `UBedge_flip`, datasets.py:158-163 -/
def ubEdgeFlip (c : List ℕ) : List ℕ := swapCols [1, 3 * 8 + 1] 1 c
/-- `ULBcorner_rot`, datasets.py:165-170 -/
def ulbCornerRot (c : List ℕ) (i : ℕ := 1) : List ℕ := swapCols [0, 4 * 8, 3 * 8 + 2] i c
/-- `LBface_swap`, datasets.py:172-177 -/
def lbFaceSwap (c : List ℕ) : List ℕ := swapCols [4 * 8 + 1, 3 * 8 + 1] 1 c

end Verif
