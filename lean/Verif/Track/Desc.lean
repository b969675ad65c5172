import Verif.Track.Klt

/-!
# Model of the descriptor tracker's bookkeeping (`ov_core/src/track/TrackDescriptor.cpp`)

Modelled: which points and ids a camera has after each call, which ids are drawn, which observations are stored, and the matching (ratio test, symmetry test). OpenCV is an oracle: the corners for which descriptors
were computed, the nearest neighbours of every descriptor with their distances, and which matches RANSAC accepts. Pixels and distances are rationals. An access outside of a list, or a failing assertion, gives
`none`. Descriptors are not modelled: they are stored row by row with the points (lines 140-141, 290-293, 299-302), so a list of points has as many descriptors.
-/

set_option autoImplicit false

namespace Verif.Track

/-- `cv::DMatch`: `queryIdx`, `trainIdx`, `distance` -/
structure DM where
  q : ℕ
  t : ℕ
  d : ℚ
  deriving DecidableEq

/-- `robust_ratio_test`, TrackDescriptor.cpp:538-552. A quotient of zeros is not greater than the ratio in both worlds (NaN in C++, 0 here); a positive number over zero does not occur, neighbours being sorted. -/
def ratioTest (r : ℚ) (ms : List (List DM)) : List (List DM) :=
  ms.map fun m => match m with
    | a :: b :: l => if a.d / b.d > r then [] else a :: b :: l
    | _ => []

/-- the inner loop of `robust_symmetry_test`, TrackDescriptor.cpp:557-573 -/
def symPick (ms2 : List (List DM)) : List DM → Option DM
  | a :: _ :: _ => if ms2.any (fun m2 => match m2 with
      | b :: _ :: _ => a.q == b.t && b.q == a.t
      | _ => false) then some ⟨a.q, a.t, a.d⟩ else none
  | _ => none

/-- `robust_symmetry_test`, TrackDescriptor.cpp:554-575 -/
def symmetryTest (ms1 ms2 : List (List DM)) : List DM := ms1.filterMap (symPick ms2)

/-- OpenCV's answers for one call of `robust_match` -/
structure Knn where
  fwd : List (List DM)
  bwd : List (List DM)
  ransac : ℕ → Bool

/-- `robust_match`, TrackDescriptor.cpp:480-536, for `n0` and `n1` points. -/
def robustMatch (r : ℚ) (n0 n1 : ℕ) (k : Knn) : Option (List DM) :=
  let good := symmetryTest (ratioTest r k.fwd) (ratioTest r k.bwd)
  if !good.all (fun m => decide (m.q < n0) && decide (m.t < n1)) then none
  else if good.length < 10 then some []
  else some ((good.zipIdx.filter fun e => k.ransac e.2).map Prod.fst)

/-- the bounds on a point, TrackDescriptor.cpp:383-389, 446-453, 454-461: its cell in the grid of image `G` and its pixel in image `I`. -/
def boundsOk (cfg : TCfg) (G I : Img) (p : Pt) : Bool :=
  closeOk cfg G (closeCell cfg p) && decide (0 ≤ trunc p.1) && decide (trunc p.1 < I.cols) && decide (0 ≤ trunc p.2) && decide (trunc p.2 < I.rows)

/-- `perform_detection_monocular`, TrackDescriptor.cpp:355-401: the points kept. -/
def detectDesc (cfg : TCfg) (I : Img) : List (ℤ × ℤ) → List Pt → List Pt
  | _, [] => []
  | occ, p :: ps =>
    if !boundsOk cfg I I p then detectDesc cfg I occ ps
    else if occ.contains (closeCell cfg p) then detectDesc cfg I occ ps
    else p :: detectDesc cfg I (closeCell cfg p :: occ) ps

/-- the loop of `perform_detection_stereo`, TrackDescriptor.cpp:437-477. The occupancy grids are read (464) but never written, so they reject nothing; the right point is compared with the size of the left image (458-459). -/
def pairNew (cfg : TCfg) (IL IR : Img) (extL extR : List Pt) : List DM → Option (List (Pt × Pt))
  | [] => some []
  | m :: ms =>
    match extL[m.q]?, extR[m.t]? with
    | some p, some p' =>
      match pairNew cfg IL IR extL extR ms with
      | none => none
      | some r => if boundsOk cfg IL IL p && boundsOk cfg IR IL p' then some ((p, p') :: r) else some r
    | _, _ => none

/-- the loop that finds the old index of a new point: the last match wins, TrackDescriptor.cpp:131-136, 271-284 -/
def lastQ (ms : List DM) (i : ℕ) : Option ℕ := ms.foldl (fun acc m => if m.t = i then some m.q else acc) none

/-- the id of the `i`-th new point with fresh id `n`, TrackDescriptor.cpp:130-147 -/
def pickMono (old : List ℕ) (ms : List DM) (i n : ℕ) : Option ℕ :=
  match lastQ ms i with
  | some q => old[q]?
  | none => some n

/-- the ids of the new points, TrackDescriptor.cpp:128-148 -/
def mergeMono (old : List ℕ) (ms : List DM) : ℕ → List ℕ → Option (List ℕ)
  | _, [] => some []
  | i, n :: ns => (pickMono old ms i n).bind fun x => (mergeMono old ms (i + 1) ns).map fun xs => x :: xs

/-- the id of the `i`-th new pair of points with fresh id `n`, TrackDescriptor.cpp:270-305 -/
def pickStereo (oldL oldR : List ℕ) (mL mR : List DM) (i n : ℕ) : Option ℕ :=
  match lastQ mL i, lastQ mR i with
  | some a, some b => oldL[a]?.bind fun x => oldR[b]?.map fun y => if x = y then x else n
  | _, _ => some n

/-- the ids of the new points of both images, TrackDescriptor.cpp:268-306 -/
def mergeStereo (oldL oldR : List ℕ) (mL mR : List DM) : ℕ → List ℕ → Option (List ℕ)
  | _, [] => some []
  | i, n :: ns => (pickStereo oldL oldR mL mR i n).bind fun x => (mergeStereo oldL oldR mL mR (i + 1) ns).map fun xs => x :: xs

/-- one camera of a message -/
structure DMono where
  cam : ℕ
  img : Img
  ext : List Pt
  knn : Knn

/-- `feed_monocular`, TrackDescriptor.cpp:63-178. `fresh`: the ids this call draws, in order; it must be as many as there are new points. Result: the camera afterwards and the observations stored in the database. -/
def feedDescMono (cfg : TCfg) (r : ℚ) (c : Cam) (x : DMono) (fresh : List ℕ) : Option (Cam × List (ℕ × Pt)) :=
  let new := detectDesc cfg x.img [] x.ext
  if fresh.length ≠ new.length then none
  else if c.pts.isEmpty then some (⟨new, fresh, x.img⟩, [])
  else do
    let ms ← robustMatch r c.pts.length new.length x.knn
    let ids ← mergeMono c.ids ms 0 fresh
    some (⟨new, ids, x.img⟩, ids.zip new)

/-- a pair of images -/
structure DStereo where
  imgL : Img
  imgR : Img
  extL : List Pt
  extR : List Pt
  lr : Knn
  ll : Knn
  rr : Knn

structure DOut where
  cl : Cam
  cr : Cam
  cur : ℕ
  obs : List (ℕ × Pt × Pt)

/-- `feed_stereo`, TrackDescriptor.cpp:180-353. -/
def feedDescStereo (cfg : TCfg) (r : ℚ) (cl cr : Cam) (cur : ℕ) (x : DStereo) : Option DOut := do
  let m0 ← robustMatch r x.extL.length x.extR.length x.lr
  let prs ← pairNew cfg x.imgL x.imgR x.extL x.extR m0
  let fresh := (List.range prs.length).map fun k => cur + 1 + k
  if cl.pts.isEmpty || cr.pts.isEmpty then
    some ⟨⟨prs.map Prod.fst, fresh, x.imgL⟩, ⟨prs.map Prod.snd, fresh, x.imgR⟩, cur + prs.length, []⟩
  else do
    let mL ← robustMatch r cl.pts.length prs.length x.ll
    let mR ← robustMatch r cr.pts.length prs.length x.rr
    if cl.pts.length ≠ cr.pts.length then none
    else do
      let ids ← mergeStereo cl.ids cr.ids mL mR 0 fresh
      some ⟨⟨prs.map Prod.fst, ids, x.imgL⟩, ⟨prs.map Prod.snd, ids, x.imgR⟩, cur + prs.length, ids.zip prs⟩

/-- the atomic counter and the cameras -/
structure DTracker where
  cur : ℕ
  cam : ℕ → Cam

/-- a tracker without images, TrackBase.cpp:30-41 -/
def DTracker.init (numAruco : ℕ) : DTracker := ⟨firstId numAruco, fun _ => ⟨[], [], ⟨0, 0, fun _ _ => false⟩⟩⟩

/-- the calls of `feed_monocular` for one message, TrackDescriptor.cpp:46-57. They only share the counter (and the database). -/
def feedDescMonos (cfg : TCfg) (r : ℚ) (cur : ℕ) (sched : List ℕ) : ℕ → (ℕ → Cam) → List DMono → Option ((ℕ → Cam) × List (ℕ × ℕ × Pt))
  | _, cam, [] => some (cam, [])
  | k, cam, x :: xs => do
    let (c, obs) ← feedDescMono cfg r (cam x.cam) x (drawn cur sched k)
    let (cam', obs') ← feedDescMonos cfg r cur sched (k + 1) (Function.update cam x.cam c) xs
    some (cam', obs.map (fun o => (x.cam, o.1, o.2)) ++ obs')

inductive DMsg where
  | mono (xs : List DMono) (sched : List ℕ)
  | stereo (l r : ℕ) (x : DStereo)

/-- `feed_new_camera`, TrackDescriptor.cpp:33-61: the tracker afterwards and the stored observations (camera, id, pixel). -/
def DTracker.feed (cfg : TCfg) (r : ℚ) (T : DTracker) : DMsg → Option (DTracker × List (ℕ × ℕ × Pt))
  | .mono xs sched => do
    let (cam, obs) ← feedDescMonos cfg r T.cur sched 0 T.cam xs
    some (⟨T.cur + sched.length, cam⟩, obs)
  | .stereo a b x => do
    let o ← feedDescStereo cfg r (T.cam a) (T.cam b) T.cur x
    some (⟨o.cur, Function.update (Function.update T.cam a o.cl) b o.cr⟩, o.obs.flatMap fun e => [(a, e.1, e.2.1), (b, e.1, e.2.2)])

end Verif.Track
