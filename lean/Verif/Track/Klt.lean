import Verif.Track.Ids
import Mathlib.Algebra.Order.Floor.Ring
import Mathlib.Data.Rat.Floor

/-!
# Model of the KLT tracker's bookkeeping (`ov_core/src/track/TrackKLT.cpp`)

Modelled: which points and ids a camera has after each call, which ids are drawn, and which observations are stored. OpenCV is an oracle: the corners returned by the extraction, and for every point its new
position and whether optical flow and RANSAC both accepted it. Pixels are rationals and divisions are exact (`float` rounding is not modelled). An access outside of a list or an image, or a failing assertion, gives `none`.

Not modelled here: the choice of the grid cells in which corners are extracted (see `Track/Grid`), image equalisation and pyramids, timing.
-/

set_option autoImplicit false

namespace Verif.Track

abbrev Pt := ℚ × ℚ

/-- conversion of a float to `int`: towards zero -/
def trunc (x : ℚ) : ℤ := if 0 ≤ x then ⌊x⌋ else ⌈x⌉

/-- an image: its size and its mask (`true`: do not use) -/
structure Img where
  cols : ℤ
  rows : ℤ
  mask : ℤ → ℤ → Bool

/-- reading the mask; `none` outside of the image (`cv::Mat::at` does not check) -/
def Img.masked? (I : Img) (x y : ℤ) : Option Bool := if 0 ≤ x ∧ x < I.cols ∧ 0 ≤ y ∧ y < I.rows then some (I.mask x y) else none

/-- settings: `min_px_dist`, `grid_x`, `grid_y`, `num_features` -/
structure TCfg where
  minDist : ℤ
  gx : ℤ
  gy : ℤ
  num : ℤ

/-- cell of the occupancy grid, TrackKLT.cpp:423-424, 500-501 -/
def closeCell (cfg : TCfg) (p : Pt) : ℤ × ℤ := (trunc (p.1 / cfg.minDist), trunc (p.2 / cfg.minDist))

/-- TrackKLT.cpp:401-402, 425, 502 -/
def closeOk (cfg : TCfg) (I : Img) (c : ℤ × ℤ) : Bool :=
  decide (0 ≤ c.1) && decide (c.1 < trunc (I.cols / cfg.minDist)) && decide (0 ≤ c.2) && decide (c.2 < trunc (I.rows / cfg.minDist))

/-- TrackKLT.cpp:404-405, 431-437 -/
def gridOk (cfg : TCfg) (I : Img) (p : Pt) : Bool :=
  let x := ⌊p.1 / (I.cols / cfg.gx)⌋
  let y := ⌊p.2 / (I.rows / cfg.gy)⌋
  decide (0 ≤ x) && decide (x < cfg.gx) && decide (0 ≤ y) && decide (y < cfg.gy)

/-- TrackKLT.cpp:414-421 (negated) -/
def edgeOk (I : Img) (p : Pt) : Bool :=
  decide (10 ≤ trunc p.1) && decide (trunc p.1 < I.cols - 10) && decide (10 ≤ trunc p.2) && decide (trunc p.2 < I.rows - 10)

/-- the loop that prunes the current points, TrackKLT.cpp:411-464 (mono), 547-600 (left), 724-780 (right). `keep id` tells that a point must not be removed for being near another one (only in the right loop,
`is_stereo`, 754). The two lists are erased in lockstep. `occ` are the occupied cells. -/
def prune (cfg : TCfg) (I : Img) (keep : ℕ → Bool) : List (ℤ × ℤ) → List Pt → List ℕ → Option (List Pt × List ℕ × List (ℤ × ℤ))
  | occ, [], ids => some ([], ids, occ)
  | _, _ :: _, [] => none
  | occ, p :: ps, i :: is =>
    if !edgeOk I p then prune cfg I keep occ ps is
    else if !closeOk cfg I (closeCell cfg p) then prune cfg I keep occ ps is
    else if !gridOk cfg I p then prune cfg I keep occ ps is
    else if occ.contains (closeCell cfg p) && !keep i then prune cfg I keep occ ps is
    else match I.masked? (trunc p.1) (trunc p.2) with
      | none => none
      | some true => prune cfg I keep occ ps is
      | some false =>
        match prune cfg I keep (closeCell cfg p :: occ) ps is with
        | none => none
        | some r => some (p :: r.1, i :: r.2.1, r.2.2)

/-- reject extracted corners near a current feature, TrackKLT.cpp:496-512, 634-650, 810-825 -/
def addNew (cfg : TCfg) (I : Img) : List (ℤ × ℤ) → List Pt → List Pt
  | _, [] => []
  | occ, p :: ps =>
    if !closeOk cfg I (closeCell cfg p) then addNew cfg I occ ps
    else if occ.contains (closeCell cfg p) then addNew cfg I occ ps
    else p :: addNew cfg I (closeCell cfg p :: occ) ps

/-- TrackKLT.cpp:467-470 -/
def needMono (cfg : TCfg) (n : ℕ) : Bool := !decide (cfg.num - n < min 20 (trunc (cfg.num / 2)))

/-- TrackKLT.cpp:604-609, 784-785 -/
def needStereo (cfg : TCfg) (n : ℕ) : Bool := decide (cfg.num - n > min 20 (trunc (cfg.num / 2)))

/-- `perform_detection_monocular`, TrackKLT.cpp:395-528 up to the assignment of ids: the kept points and ids, and the new points. `ext` are the corners found by OpenCV. -/
def detectMono (cfg : TCfg) (I : Img) (pts : List Pt) (ids : List ℕ) (ext : List Pt) : Option (List Pt × List ℕ × List Pt) :=
  match prune cfg I (fun _ => false) [] pts ids with
  | none => none
  | some (ps, is, occ) => some (ps, is, if needMono cfg ps.length then addNew cfg I occ ext else [])

/-- what the tracker remembers of a camera: `pts_last`, `ids_last`, `img_last`/`img_mask_last` -/
structure Cam where
  pts : List Pt
  ids : List ℕ
  img : Img

/-- `perform_matching`, TrackKLT.cpp:829-889: new positions and the mask. With fewer than ten points nothing moves and everything is rejected. `flow i`: result of optical flow and RANSAC for point `i`
(OpenCV returns one result for every point). -/
def matching (flow : ℕ → Pt × Bool) (pts : List Pt) : List Pt × List Bool :=
  if pts.length < 10 then (pts, pts.map fun _ => false)
  else ((List.range pts.length).map fun i => (flow i).1, (List.range pts.length).map fun i => (flow i).2)

/-- the loop over the tracked points, TrackKLT.cpp:158-174 -/
def monoLoop (I : Img) : List Pt → List ℕ → List Bool → Option (List Pt × List ℕ)
  | [], _, _ => some ([], [])
  | p :: ps, i :: is, m :: ms =>
    if p.1 < 0 || p.2 < 0 || decide (I.cols ≤ trunc p.1) || decide (I.rows ≤ trunc p.2) then monoLoop I ps is ms
    else match I.masked? (trunc p.1) (trunc p.2) with
      | none => none
      | some true => monoLoop I ps is ms
      | some false =>
        if m then match monoLoop I ps is ms with
          | none => none
          | some r => some (p :: r.1, i :: r.2)
        else monoLoop I ps is ms
  | _, _, _ => none

/-- `feed_monocular`, TrackKLT.cpp:96-200. `fresh`: the ids this call draws, in order; it must be as many as there are new points. Result: the camera afterwards and the observations stored in the database. -/
def feedMono (cfg : TCfg) (c : Cam) (I : Img) (ext : List Pt) (flow : ℕ → Pt × Bool) (fresh : List ℕ) : Option (Cam × List (ℕ × Pt)) :=
  if c.pts.isEmpty then
    match detectMono cfg I [] [] ext with
    | none => none
    | some (_, _, new) => if fresh.length ≠ new.length then none else some (⟨new, fresh, I⟩, [])
  else
    match detectMono cfg c.img c.pts c.ids ext with
    | none => none
    | some (ps, is, new) =>
      if fresh.length ≠ new.length then none
      else
        let old := ps ++ new
        let oldIds := is ++ fresh
        let mt := matching flow old
        if mt.1.length ≠ oldIds.length then none
        else if mt.2.isEmpty then some (⟨[], [], I⟩, [])
        else match monoLoop I mt.1 oldIds mt.2 with
          | none => none
          | some (g, gi) => some (⟨g, gi, I⟩, gi.zip g)

/-- number of ids a call of `feed_monocular` draws -/
def monoNeed (cfg : TCfg) (c : Cam) (I : Img) (ext : List Pt) : Option ℕ :=
  (if c.pts.isEmpty then detectMono cfg I [] [] ext else detectMono cfg c.img c.pts c.ids ext).map fun r => r.2.2.length

/-! ## stereo -/

/-- TrackKLT.cpp:678-681 -/
def oobNew (I : Img) (p : Pt) : Bool := decide (trunc p.1 < 0) || decide (I.cols ≤ trunc p.1) || decide (trunc p.2 < 0) || decide (I.rows ≤ trunc p.2)

/-- new features of the left camera, TrackKLT.cpp:675-709: stereo if flow into the right image succeeded, otherwise left only. `lr i`: flow of new point `i` into the right image. Result: points and ids of the
left and of the right camera, and the counter. -/
def stereoNew (IL IR : Img) (lr : ℕ → Pt × Bool) : ℕ → ℕ → List Pt → (List Pt × List ℕ) × (List Pt × List ℕ) × ℕ
  | _, cur, [] => (([], []), ([], []), cur)
  | k, cur, p :: ps =>
    if !oobNew IL p && !oobNew IR (lr k).1 && (lr k).2 then
      let r := stereoNew IL IR lr (k + 1) (cur + 1) ps
      ((p :: r.1.1, (cur + 1) :: r.1.2), ((lr k).1 :: r.2.1.1, (cur + 1) :: r.2.1.2), r.2.2)
    else if !oobNew IL p then
      let r := stereoNew IL IR lr (k + 1) (cur + 1) ps
      ((p :: r.1.1, (cur + 1) :: r.1.2), r.2.1, r.2.2)
    else stereoNew IL IR lr (k + 1) cur ps

/-- result of the stereo detection: points and ids of both cameras, the counter, and (not in the code, for the specification) the left and right points with ids that were created as stereo pairs. -/
structure Det where
  pl : List Pt
  il : List ℕ
  pr : List Pt
  ir : List ℕ
  cur : ℕ
  born : List ℕ

/-- `perform_detection_stereo`, TrackKLT.cpp:530-827 (`mask1_updated`, which starts from the mask of the *left* image at 721, is only used by the extraction) -/
def detectStereo (cfg : TCfg) (IL IR : Img) (pl : List Pt) (il : List ℕ) (pr : List Pt) (ir : List ℕ) (cur : ℕ) (extL extR : List Pt) (lr : ℕ → Pt × Bool) : Option Det :=
  match prune cfg IL (fun _ => false) [] pl il with
  | none => none
  | some (ps, is, occ) =>
    let n := if needStereo cfg ps.length then stereoNew IL IR lr 0 cur (addNew cfg IL occ extL) else (([], []), ([], []), cur)
    let l := ps ++ n.1.1
    let li := is ++ n.1.2
    match prune cfg IR (fun i => li.contains i) [] (pr ++ n.2.1.1) (ir ++ n.2.1.2) with
    | none => none
    | some (qs, js, occ1) =>
      let new := if needStereo cfg qs.length then addNew cfg IR occ1 extR else []
      let d := drawIds n.2.2 new.length
      some ⟨l, li, qs ++ new, js ++ d.1, d.2, n.2.1.2⟩

/-- the loop over the left points, TrackKLT.cpp:305-338 (the bound of the left image is `> cols`, not `>= cols`) -/
def leftLoop (IL IR : Img) (newR : List Pt) (idsR : List ℕ) (maskR : List Bool) : List Pt → List ℕ → List Bool → Option ((List Pt × List ℕ) × (List Pt × List ℕ))
  | [], _, _ => some (([], []), ([], []))
  | p :: ps, i :: is, m :: ms =>
    match leftLoop IL IR newR idsR maskR ps is ms with
    | none => none
    | some r =>
      if p.1 < 0 || p.2 < 0 || decide (IL.cols < trunc p.1) || decide (IL.rows < trunc p.2) then some r
      else if !m then some r
      else match idsR.findIdx? (· = i) with
        | none => some ((p :: r.1.1, i :: r.1.2), r.2)
        | some n => match maskR[n]?, newR[n]?, idsR[n]? with
          | some true, some q, some j =>
            if q.1 < 0 || q.2 < 0 || decide (IR.cols ≤ trunc q.1) || decide (IR.rows ≤ trunc q.2) then some r
            else some ((p :: r.1.1, i :: r.1.2), (q :: r.2.1, j :: r.2.2))
          | some false, _, _ => some ((p :: r.1.1, i :: r.1.2), r.2)
          | _, _, _ => none
  | _, _, _ => none

/-- the loop over the right points, TrackKLT.cpp:340-353. The first two arguments are the right points and ids that are already good. -/
def rightLoop (IR : Img) : List Pt → List ℕ → List Pt → List ℕ → List Bool → Option (List Pt × List ℕ)
  | g, gi, [], _, _ => some (g, gi)
  | g, gi, q :: qs, j :: js, m :: ms =>
    if q.1 < 0 || q.2 < 0 || decide (IR.cols ≤ trunc q.1) || decide (IR.rows ≤ trunc q.2) then rightLoop IR g gi qs js ms
    else if m && !gi.contains j then rightLoop IR (g ++ [q]) (gi ++ [j]) qs js ms
    else rightLoop IR g gi qs js ms
  | _, _, _, _, _ => none

/-- what OpenCV answers during one stereo call -/
structure StereoIn where
  imgL : Img
  imgR : Img
  extL : List Pt
  extR : List Pt
  lr : ℕ → Pt × Bool
  flowL : ℕ → Pt × Bool
  flowR : ℕ → Pt × Bool

/-- result of a stereo call: both cameras, counter, stored observations of both cameras, ids created as stereo pairs -/
structure StereoOut where
  cl : Cam
  cr : Cam
  cur : ℕ
  obsL : List (ℕ × Pt)
  obsR : List (ℕ × Pt)
  born : List ℕ

/-- `feed_stereo`, TrackKLT.cpp:202-393 -/
def feedStereo (cfg : TCfg) (cl cr : Cam) (cur : ℕ) (x : StereoIn) : Option StereoOut :=
  if cl.pts.isEmpty && cr.pts.isEmpty then
    match detectStereo cfg x.imgL x.imgR [] [] [] [] cur x.extL x.extR x.lr with
    | none => none
    | some d => some ⟨⟨d.pl, d.il, x.imgL⟩, ⟨d.pr, d.ir, x.imgR⟩, d.cur, [], [], d.born⟩
  else
    match detectStereo cfg cl.img cr.img cl.pts cl.ids cr.pts cr.ids cur x.extL x.extR x.lr with
    | none => none
    | some d =>
      let ml := matching x.flowL d.pl
      let mr := matching x.flowR d.pr
      if ml.2.isEmpty && mr.2.isEmpty then some ⟨⟨[], [], x.imgL⟩, ⟨[], [], x.imgR⟩, d.cur, [], [], d.born⟩
      else match leftLoop x.imgL x.imgR mr.1 d.ir mr.2 ml.1 d.il ml.2 with
        | none => none
        | some l => match rightLoop x.imgR l.2.1 l.2.2 mr.1 d.ir mr.2 with
          | none => none
          | some r => some ⟨⟨l.1.1, l.1.2, x.imgL⟩, ⟨r.1, r.2, x.imgR⟩, d.cur, l.1.2.zip l.1.1, r.2.zip r.1, d.born⟩

/-! ## the tracker -/

/-- the tracker: the atomic counter `currid` and the cameras. `pairs` (not in the code, for the specification): the ids ever created as stereo pairs, with their cameras. -/
structure Tracker where
  cur : ℕ
  cam : ℕ → Cam
  pairs : List (ℕ × ℕ × ℕ)

/-- a tracker without images, TrackBase.cpp:30-41 -/
def Tracker.init (numAruco : ℕ) : Tracker := ⟨firstId numAruco, fun _ => ⟨[], [], ⟨0, 0, fun _ _ => false⟩⟩, []⟩

/-- one camera of a message, with OpenCV's answers -/
structure MonoIn where
  cam : ℕ
  img : Img
  ext : List Pt
  flow : ℕ → Pt × Bool

/-- the ids drawn by call `k` when the atomic increments of all parallel calls happen in the order `sched` (the list of the calls that make them). -/
def drawn (cur : ℕ) (sched : List ℕ) (k : ℕ) : List ℕ := (sched.zipIdx.filter fun e => e.1 == k).map fun e => cur + 1 + e.2

/-- the calls of `feed_monocular` for one message, TrackKLT.cpp:78-93. They only share the counter (and the database). -/
def feedMonos (cfg : TCfg) (cur : ℕ) (sched : List ℕ) : ℕ → (ℕ → Cam) → List MonoIn → Option ((ℕ → Cam) × List (ℕ × ℕ × Pt))
  | _, cam, [] => some (cam, [])
  | k, cam, x :: xs =>
    match feedMono cfg (cam x.cam) x.img x.ext x.flow (drawn cur sched k) with
    | none => none
    | some (c, obs) => match feedMonos cfg cur sched (k + 1) (Function.update cam x.cam c) xs with
      | none => none
      | some (cam', obs') => some (cam', obs.map (fun o => (x.cam, o.1, o.2)) ++ obs')

/-- one message -/
inductive Msg where
  | mono (xs : List MonoIn) (sched : List ℕ)
  | stereo (l r : ℕ) (x : StereoIn)

/-- `feed_new_camera`, TrackKLT.cpp:34-94: the tracker afterwards and the stored observations (camera, id, pixel). -/
def Tracker.feed (cfg : TCfg) (T : Tracker) : Msg → Option (Tracker × List (ℕ × ℕ × Pt))
  | .mono xs sched =>
    match feedMonos cfg T.cur sched 0 T.cam xs with
    | none => none
    | some (cam, obs) => some (⟨T.cur + sched.length, cam, T.pairs⟩, obs)
  | .stereo l r x =>
    match feedStereo cfg (T.cam l) (T.cam r) T.cur x with
    | none => none
    | some o => some (⟨o.cur, Function.update (Function.update T.cam l o.cl) r o.cr, T.pairs ++ o.born.map (fun i => (i, l, r))⟩,
        o.obsL.map (fun e => (l, e.1, e.2)) ++ o.obsR.map (fun e => (r, e.1, e.2)))

/-- a sequence of messages -/
def Tracker.run (cfg : TCfg) : Tracker → List Msg → Option Tracker
  | T, [] => some T
  | T, m :: ms => match T.feed cfg m with
    | none => none
    | some (T', _) => T'.run cfg ms

end Verif.Track
