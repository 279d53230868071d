# Formal model of cicwi/PyCorrectedEmissionCT (corrct) in Lean 4

Generated by `tools/mkdesign.py` from `tools/design_head.md`, `properties.jsonl`, `MANIFEST.json`, the doc-strings of the
theorems, `tools/coverage.py` (which functions of the code the model cites) and `tools/axioms.json`.

## 1. Layout

* `lean/Verif/Model/*.lean` – the model: definitions that follow the Python functions branch by branch; each cites
  `src/corrct/<file>:<lines>` and says where it simplifies. Exceptions are values (`Except`, `Option`).
* `lean/Verif/Spec/*.lean` – small independent specifications (the documented functionals, what a proximal operator, an adjoint,
  a solution … is). They do not import the model, except where a statement is about a record of the model.
* `lean/Verif/Lemmas/*.lean` – helper lemmas.
* `lean/Verif/Props/*.lean` – the theorems about the properties, named `Cnn_…`, with `example`s that satisfy their hypotheses.
* A property that the code violates is stated anyway: a theorem that refutes it on the model, with a concrete witness
  (`Cnn_…_violated`, of the form `¬ ∀ …`), plus the part that is true (`Cnn_…_partial`).

## 2. Trusted base

* Lean 4.33.0: its kernel, and the elaborator as far as it decides what the *statements* mean. Nothing rests on compiled code.
* Mathlib (definitions used in statements: ℝ, ℂ, finite sums, `ZMod`, `Matrix`, `Real.exp/log/sqrt/sin/cos`, `Finset`, `List`, …).
* Axioms: only `propext`, `Classical.choice` and `Quot.sound`; section 7 lists what each theorem depends on. No axiom is added.
* That the model says what the Python code does. This was checked by reading only (nothing could be run): every definition cites
  the lines it follows. The seeded bugs in `seeded/LOG.jsonl` test that the theorems notice changes of the model.

## 3. Numbers and arrays

* Arrays are functions from a finite index type (the multi-indices), or from ℕ positions together with the sizes, or lists.
* Floating-point numbers are exact reals. Rounding, dtypes, overflow, NaN, infinities and signed zeros are **not** modelled.
  A division by zero is either an explicit error value (`Err.nonFinite`) or excluded by a hypothesis; where neither is the
  case, Lean's convention `x / 0 = 0` is harmless because the theorem has the hypothesis that rules it out.
* In-place updates are functions that return the new array. Where two names of the code denote the *same* array object and the
  code writes through one of them, the model has an explicit heap or an explicit alias (`Operator.aliasBack`, `NormOp`, `RegHeap`).
* Numbers of iterations, sizes, numbers of angles, materials, threads, … are arbitrary: no theorem has a bound on them.

## 4. Contracts of external code

These enter as parameters with the hypotheses written in the theorems; what these libraries really do is not verified.

| external code | contract |
|---|---|
| ASTRA, scikit-image projectors | one forward and one back-projection per angle; linear / mutually adjoint / with an absolute row sum only where a theorem says so |
| ASTRA object store | `create` gives a fresh handle or raises, `delete` does not raise (Model/AstraLifecycle) |
| PyWavelets | Model/Wavelets: `swtn`/`iswtn`, `wavedecn`/`waverecn` are functions, `iswtn (swtn x) = x` where needed, orthonormality only where stated. Model/StationaryWavelets: `swtn`/`iswtn` are written out (periodic convolution with dilated filters, mean of the two phases in the inverse) from the documented algorithm; the tables of filters are arbitrary |
| NumPy FFT | exact discrete Fourier sums (over `ZMod n`) |
| NumPy/SciPy `lstsq`, `Polynomial.fit`, `qr`, `svd` | a minimiser of the stated least squares problem; exact factors |
| `np.argsort`, random permutations | any permutation that sorts / any permutation |
| `ThreadPoolExecutor` | tasks run once each, complete in any order, a future holds the result or the exception of its task |
| xraylib | any tables (functions of element, energy, line), of which some calls fail |
| `scipy.optimize.minimize`, `least_squares`, matplotlib, tqdm, h5py, JSON, timing | not modelled |


## 5. What of the code is modelled

A function is listed as modelled if a definition of `lean/Verif/Model` cites its lines (the comment of the definition says what is
left out of it). What is not listed as modelled is not covered by any theorem.

### src/corrct/__init__.py (0 of 1 functions)

Not modelled: `get_version`.

### src/corrct/_projector_backends.py (27 of 31 functions)

Modelled: `compute_attenuation` (Projectors.attEdge, Projectors.cumAlong, Projectors.computeAttenuation, Projectors.zeroPad); `compute_attenuation.pad_vol` (Projectors.computeAttenuation, Projectors.zeroPad); `compute_attenuation.compute_cumsum` (Projectors.cumAlong, Projectors.computeAttenuation); `ProjectorBackend.__init__` (AstraLifecycle.St, AstraLifecycle.St.fresh, Projectors.Backend); `ProjectorBackend.initialize_geometry` (AstraShapes.shapes, Geometry.prjShape, Projectors.Backend, Skimage.skDetPixels); `ProjectorBackend.get_vol_shape` (Projectors.Backend); `ProjectorBackend.get_prj_shape` (Projectors.Backend); `ProjectorBackend.make_ready` (Projectors.Backend, XrfLifecycle.enter); `ProjectorBackend.dispose` (AstraLifecycle.dispose, Projectors.Backend); `ProjectorBackend.__del__` (Projectors.Backend); `ProjectorBackend.__repr__` (Projectors.Backend); `ProjectorBackend.fp` (Projectors.Backend); `ProjectorBackend.bp` (Projectors.Backend); `ProjectorBackendSKimage.fp` (Projectors.Backend, Projectors.Backend.fpAll, Skimage.skRadon, Skimage.skFp, …); `ProjectorBackendSKimage.bp` (AstraLifecycle.St, Projectors.Backend, Projectors.Backend.bpAll, Skimage.skIradon, …); `ProjectorBackendASTRA.__init__` (AstraLifecycle.St); `ProjectorBackendASTRA.initialize_geometry` (AstraLifecycle.initGeometry, AstraShapes.withAngles, AstraShapes.shapes, AstraShapes.detShapeAfter, …); `ProjectorBackendASTRA.make_ready` (AstraLifecycle.createProjectors, AstraLifecycle.makeReady, AstraShapes.projIds); `ProjectorBackendASTRA._check_data` (AstraLifecycle.makeReady, AstraShapes.checkData); `ProjectorBackendASTRA._check_prj_shape` (AstraShapes.checkPrjShape); `ProjectorBackendASTRA.dispose` (AstraLifecycle.dispose); `ProjectorBackendASTRA.fp` (AstraLifecycle.dispose, AstraLifecycle.runAlgorithm, AstraLifecycle.project, AstraShapes.fpShape, …); `ProjectorBackendASTRA.bp` (AstraLifecycle.runAlgorithm, AstraLifecycle.project, AstraShapes.bpChecks, AstraShapes.selected); `ProjectorBackendDirectASTRA.initialize_geometry` (AstraLifecycle.project, AstraShapes.withAngles, AstraShapes.padTwo, AstraShapes.shapes, …); `ProjectorBackendDirectASTRA.make_ready` (AstraShapes.projIds); `ProjectorBackendDirectASTRA.fp` (AstraShapes.fpShape, AstraShapes.selectedDirect); `ProjectorBackendDirectASTRA.bp` (AstraShapes.bpChecks, AstraShapes.selectedDirect).

Not modelled: `ProjectorBackendSKimage.__init__`, `ProjectorBackendSKimage.initialize_geometry`, `ProjectorBackendSKimage._set_filter_name`, `ProjectorBackendSKimage._set_bpj_size`.

### src/corrct/alignment/centering.py (3 of 4 functions)

Modelled: `RecenterVolume._apply_displacement_vu` (Alignment.recentreToCom); `RecenterVolume.to_com` (Alignment.recentreToCom); `RecenterVolume.as_reference` (AlignVolumes.recentreAsReference).

Not modelled: `RecenterVolume.__init__`.

### src/corrct/alignment/cone_beam.py (18 of 18 functions)

Modelled: `_class_to_json` (ConeSetup.ConeFields.toJson); `_get_rot_axis_angle_deg` (ConeSetup.rotAxisAngle, ConeSetup.rotAxisAngleDeg); `ConeBeamGeometry.__str__` (Geometry.prjGeomWith); `ConeBeamGeometry.get_prj_geom` (Geometry.rotVec, Geometry.alpha, Geometry.beta, Geometry.normal, …); `ConeBeamGeometry.get_vol_geom` (ConeSetup.coneVolGeom); `ConeBeamGeometry.update` (ConeSetup.ConeFields.update); `ConeBeamGeometry.get_tuning_params` (ConeSetup.ConeFields.tuningParams); `ConeBeamGeometry.to_json` (ConeSetup.ConeFields.toJson); `ConeBeamGeometry.from_json` (ConeSetup.loadFields, ConeSetup.ConeFields.fromJson); `FitConeBeamGeometry.__init__` (ConeSetup.ConeFitState); `FitConeBeamGeometry._initialize` (ConeSetup.initEta, ConeSetup.untiltPoint, ConeSetup.ConeFitState); `FitConeBeamGeometry.fit` (ConeSetup.ConeFitState, ConeSetup.fitOrigin, ConeSetup.ConeFitState.store, ConeSetup.ConeFitState.fitMeasured, …); `FitConeBeamGeometry.fit.get_v0` (ConeSetup.ConeFitState.store, ConeSetup.ConeFitState.fitMeasured, Geometry.fitCone); `FitConeBeamGeometry.fit.get_denom` (ConeSetup.ConeFitState.store, ConeSetup.ConeFitState.fitMeasured, Geometry.fitCone); `FitConeBeamGeometry.fit.get_rho` (ConeSetup.ConeFitState.store, ConeSetup.ConeFitState.fitMeasured, Geometry.fitCone); `FitConeBeamGeometry.fit.get_zeta` (ConeSetup.ConeFitState.store, ConeSetup.ConeFitState.fitMeasured, Geometry.fitCone); `FitConeBeamGeometry._fit_distance_det2src` (Geometry.fitN, Geometry.fitDistance); `tune_acquisition_geometry` (ConeSetup.tuneParam, ConeSetup.tuneGeometry).

### src/corrct/alignment/fitting.py (16 of 22 functions)

Modelled: `fit_shifts_u_sad` (AlignPre.fourierShiftRow, AlignPre.padEdgeRow, AlignPre.padZeroRow, AlignPre.sadDiff, …); `fit_shifts_vu_xc` (AlignImages.tiltShift, AlignVolumes.normSpectrum, AlignVolumes.fitShiftVUN, CrossCorrelation.xcSpectrum, …); `fit_shifts_zyx_xc` (AlignVolumes.fft3, AlignVolumes.xcSpectrum3, AlignVolumes.xcVolume, AlignVolumes.refineIf, …); `fit_image_rotation_and_scale` (AlignImages.rotationScale, AlignImages.fitRotationScale); `fit_camera_tilt_angle` (AlignImages.rowCoord, AlignImages.IsLsqLine, AlignImages.IsL1Line, AlignImages.CameraTilt); `sinusoid` (AlignPre.sinusoid); `fit_sinusoid` (AlignPre.IsSinusoidFit); `extract_peak_regions_1d` (AlignPre.peakRegion1d); `refine_max_position_1d` (Alignment.parab3, Alignment.refineMax3); `extract_peak_region_nd` (AlignPre.peakPosNd, AlignPre.peakIndexNd); `refine_max_position_2d` (AlignPre.quad2, AlignPre.vertexRows, AlignPre.RefineMax2dCore, AlignPre.sampleCoords, …); `fit_parabola_min` (Alignment.parab3, Alignment.fitStart, Alignment.fitParabolaMin); `fit_ellipse_center` (Alignment.centerRow, Alignment.FitCenter, ConeSetup.roundCentre); `fit_ellipse_parameters` (Alignment.ellFromCoeffs, Alignment.ellRow, Alignment.FitEllipse); `Ellipse.extremes_u` (Alignment.EllPars.extremesU); `Ellipse.__call__` (Alignment.EllPars.call).

Not modelled: `Trajectory.__call__`, `Ellipse.__init__`, `Ellipse.__repr__`, `Ellipse.center_vu`, `Ellipse.parameters`, `fit_ellipse`.

### src/corrct/alignment/markers.py (2 of 7 functions)

Modelled: `track_marker` (AlignImages.trackMarker); `create_marker_disk` (AlignImages.diskCoord, AlignImages.diskProbe, AlignImages.markerDisk).

Not modelled: `cm2inch`, `MarkerTrackingVisualizer.__init__`, `MarkerTrackingVisualizer._update`, `MarkerTrackingVisualizer._key_event`, `MarkerTrackingVisualizer._scroll_event`.

### src/corrct/alignment/shifts.py (9 of 9 functions)

Modelled: `_filter_shifts` (AlignPre.filterShift); `DetectorShiftsBase.__init__` (Inits.dataSize, Inits.shiftSetup, Inits.borderRange); `DetectorShiftsPRE.fit_v` (AlignVertical.vProfile, AlignVertical.vNormalise, AlignVertical.vLength, AlignVertical.vPadded, …); `DetectorShiftsPRE.fit_u` (AlignPre.preRefPoint, AlignPre.preRow, AlignPre.preFitU); `DetectorShiftsXC.fit_vu_accum_drifts` (AlignPre.accumDrifts); `DetectorShiftsXC.fit_vu` (Alignment.accumShift, Alignment.fitVSorted, Alignment.shiftsReturned); `DetectorShiftsXC.fit_u_180` (CrossCorrelation.fitU180); `DetectorShiftsXC.fit_u_360` (AlignPre.pairs360, AlignPre.fitU360); `DetectorShiftsXC.find_shifts_vu` (CrossCorrelation.xcSpectrum).

### src/corrct/data_terms.py (56 of 65 functions)

Modelled: `_soft_threshold` (Basic.npSign, Basic.softThreshold); `DataFidelityBase.__init__` (DataTerms.DataTerm, DataTerms.new, IntegerData.assignDataTyped); `DataFidelityBase._slice_attr` (DataTerms.slice); `DataFidelityBase.__getitem__` (DataTerms.slice); `DataFidelityBase.info` (Labels.termInfo); `DataFidelityBase.assign_data` (DataTerms.assignData, IntegerData.assignDataTyped, IntegerData.castTerm); `DataFidelityBase.compute_residual` (DataTerms.addBackground, DataTerms.residual); `DataFidelityBase._compute_sigma_data` (DataTerms.computeSigmaData); `DataFidelityBase.compute_data_dual_dot` (DataTerms.dataDualDot); `DataFidelityBase.initialize_dual` (DataTerms.initializeDual, IntegerData.pdhgTyped); `DataFidelityBase.update_dual` (DataTerms.updateDual, IntegerData.pdhgTyped); `DataFidelity_l2.__init__` (DataTerms.DataTerm, DataTerms.new); `DataFidelity_l2.assign_data` (DataTerms.DataTerm, DataTerms.computeSigma1, DataTerms.assignData); `DataFidelity_l2.compute_residual_norm` (DataTerms.residualNorm); `DataFidelity_l2.apply_proximal_dual` (DataTerms.subSigmaData, DataTerms.proxDual); `DataFidelity_l2.apply_proximal_primal` (DataTerms.proxPrimal); `DataFidelity_l2.compute_primal_dual_gap` (DataTerms.primalDualGap); `DataFidelity_wl2.__init__` (DataTerms.DataTerm, DataTerms.new); `DataFidelity_wl2.assign_data` (DataTerms.DataTerm, DataTerms.computeSigma1, DataTerms.assignData); `DataFidelity_wl2.compute_residual` (DataTerms.addBackground, DataTerms.residual); `DataFidelity_wl2.compute_residual_norm` (DataTerms.residualNorm); `DataFidelity_wl2.apply_proximal_primal` (DataTerms.proxPrimal); `DataFidelity_l2b.__init__` (DataTerms.DataTerm, DataTerms.new); `DataFidelity_l2b.assign_data` (DataTerms.DataTerm, DataTerms.computeSigma1, DataTerms.assignData); `DataFidelity_l2b.compute_residual` (DataTerms.residual); `DataFidelity_l2b.apply_proximal_dual` (DataTerms.subSigmaData, DataTerms.proxDual); `DataFidelity_l2b.apply_proximal_primal` (DataTerms.proxPrimal); `DataFidelity_l2b.compute_primal_dual_gap` (DataTerms.primalDualGap); `DataFidelity_Huber.__init__` (DataTerms.DataTerm); `DataFidelity_Huber.assign_data` (DataTerms.DataTerm, DataTerms.assignData); `DataFidelity_Huber.compute_residual_norm` (DataTerms.Kind, DataTerms.residualNorm); `DataFidelity_Huber.apply_proximal_dual` (DataTerms.subSigmaData, DataTerms.axisNorm, DataTerms.proxDual); `DataFidelity_Huber.apply_proximal_primal` (DataTerms.proxPrimal, SolverInit.TermClass.noPrimal); `DataFidelity_Huber.compute_primal_dual_gap` (DataTerms.primalDualGap); `DataFidelity_l1.__init__` (DataTerms.new); `DataFidelity_l1._get_inner_norm` (DataTerms.innerNorm); `DataFidelity_l1._apply_threshold` (DataTerms.applyThreshold); `DataFidelity_l1.apply_proximal_dual` (DataTerms.subSigmaData, DataTerms.proxDual, Regularizers.RegState.proxDualFinite); `DataFidelity_l1.apply_proximal_primal` (DataTerms.proxPrimal); `DataFidelity_l1.compute_residual_norm` (DataTerms.DataTerm, DataTerms.residualNorm); `DataFidelity_l1.compute_primal_dual_gap` (DataTerms.primalDualGap); `DataFidelity_l12.__init__` (DataTerms.new); `DataFidelity_l12._get_inner_norm` (DataTerms.axisNorm, DataTerms.innerNorm); `DataFidelity_l12.apply_proximal_primal` (DataTerms.proxPrimal, SolverInit.TermClass.noPrimal); `DataFidelity_l1b.__init__` (DataTerms.DataTerm, DataTerms.new); `DataFidelity_l1b.assign_data` (DataTerms.DataTerm, DataTerms.assignData); `DataFidelity_l1b._apply_threshold` (DataTerms.applyThreshold); `DataFidelity_l1b.apply_proximal_primal` (DataTerms.proxPrimal); `DataFidelity_KL._compute_sigma_data` (DataTerms.computeSigmaData); `DataFidelity_KL.apply_proximal_dual` (DataTerms.proxDual); `DataFidelity_KL.apply_proximal_primal` (DataTerms.proxPrimal); `DataFidelity_KL.compute_residual` (DataTerms.addBackground, DataTerms.residual, DataTerms.residualKLplain); `DataFidelity_KL.compute_residual_norm` (DataTerms.residualNorm); `DataFidelity_KL.compute_primal_dual_gap` (DataTerms.primalDualGap); `DataFidelity_ln.apply_proximal_dual` (Nuclear.lnProxDual, Nuclear.lnProxDualData, WaveletMulti.bandNuclear); `DataFidelity_ln.compute_residual_norm` (Nuclear.lnResidualNorm).

Not modelled: `DataFidelityBase.upper`, `DataFidelityBase.lower`, `DataFidelityBase.compute_residual_norm`, `DataFidelityBase.apply_proximal_dual`, `DataFidelityBase.apply_proximal_primal`, `DataFidelityBase.compute_primal_dual_gap`, `DataFidelity_ln.__init__`, `DataFidelity_ln.apply_proximal_primal`, `DataFidelity_ln.compute_primal_dual_gap`.

### src/corrct/denoisers.py (3 of 6 functions)

Modelled: `denoise_image` (Denoise.medfilt2d, Denoise.Denoise, Denoise.denoiseTerm, Denoise.Denoise.solverInit, …); `denoise_image.solver_init` (Denoise.Denoise, Denoise.denoiseTerm, Denoise.Denoise.solverInit, Denoise.denoiseImage); `denoise_image.solver_exec` (Denoise.medfilt2d, Denoise.Denoise.solverInit, Denoise.Denoise.start, Denoise.Denoise.solverExec, …).

Not modelled: `_default_regularizer_l1dwl`, `denoise_image`.

### src/corrct/filters.py (18 of 26 functions)

Modelled: `create_basis` (Filters.nextWindow, Filters.basisLoop, Filters.filterPos, Filters.basis0, …); `create_basis_wavelet` (WaveletBasis.coords, WaveletBasis.trimZeros, WaveletBasis.padCentre, WaveletBasis.dilate, …); `Filter.__init__` (FilterObjs.FilterObj.new, Filters.applyFilter); `Filter.get_padding_size` (Filters.paddingSize); `Filter.to_fourier` (FilterObjs.numFreqs, FilterObjs.spectrumRow); `Filter.to_real` (Filters.toReal); `Filter.filter_fourier` (FilterObjs.FilterObj.getFourier); `Filter.filter_real` (Filters.filterRealGet); `Filter.filter_real` (FilterObjs.FilterObj.setReal, Filters.filterRealSet); `Filter.filter_fourier` (FilterObjs.FilterObj.setFourier); `Filter.num_filters` (FilterObjs.FilterObj.numFilters); `Filter.apply_filter` (FilterObjs.FilterObj, FilterObjs.rowEntry, FilterObjs.applyFilterC, FilterObjs.FilterObj.apply, …); `Filter.__call__` (FilterObjs.FilterObj.callCustom, FilterObjs.FilterObj.callFbp); `FilterCustom.compute_filter` (FilterObjs.FilterObj.callCustom); `FilterFBP.__init__` (FilterObjs.fbpFilterName); `FilterFBP.compute_filter` (FilterObjs.fbpRow, FilterObjs.FilterObj.callFbp); `FilterMR.initialize` (Filters.mrCall); `FilterMR.compute_filter` (Filters.mrCall, Filters.mrColumn).

Not modelled: `BasisOptions.__len__`, `BasisOptions.__getitem__`, `BasisOptions.__iter__`, `Filter.compute_filter`, `Filter.plot_filters`, `FilterCustom.__init__`, `FilterFBP.get_available_filters`, `FilterMR.__init__`.

### src/corrct/models.py (27 of 35 functions)

Modelled: `ProjectionGeometry.__post_init__` (Geometry.PrjGeom, Geometry.sliceRows); `ProjectionGeometry.__getitem__` (Geometry.sliceRows, Geometry.PrjGeom.getItem); `ProjectionGeometry.__getitem__.slice_array` (Geometry.sliceRows, Geometry.PrjGeom.getItem); `ProjectionGeometry.ndim` (DataFormats.parallelNdim, Geometry.GeomType, Geometry.GeomType.ndim); `ProjectionGeometry.get_3d` (Geometry.GeomType.get3d); `ProjectionGeometry.set_detector_shape_vu` (DataFormats.parallelDetShape); `ProjectionGeometry.set_detector_shifts_vu` (Geometry.setDetectorShifts, GeometrySetters.ShiftsVu.u, GeometrySetters.addScaled, GeometrySetters.setDetectorShiftsVu); `ProjectionGeometry.set_source_shifts_vu` (GeometrySetters.setSourceShiftsVu); `ProjectionGeometry.set_detector_tilt` (Geometry.rotVec, Geometry.setDetectorTilt); `ProjectionGeometry.rotate` (Geometry.rotVec, Geometry.PrjGeom.rotate); `ProjectionGeometry.get_field_scaled` (AstraShapes.vectors, Geometry.fieldScaledDrops); `ProjectionGeometry.project_displacement_to_detector` (Geometry.projectDisplacement); `ProjectionGeometry.get_pre_weights` (Geometry.preWeight, Geometry.preWeightCoord); `VolumeGeometry.__post_init__` (DataFormats.VolGeom); `VolumeGeometry.shape_zxy` (Geometry.shapeZxy); `VolumeGeometry.mask_shape` (AstraShapes.vectors); `VolumeGeometry.extent` (AstraShapes.voxelCentre, ConeSetup.volExtent); `VolumeGeometry.is_3D` (Geometry.is3D); `VolumeGeometry.get_3d` (Geometry.volGet3d); `VolumeGeometry.get_default_from_data` (DataFormats.volGeomOfData); `combine_shifts_vu` (Geometry.combineShifts); `get_rot_axis_dir` (DataFormats.RotDir, DataFormats.getRotAxisDir, Geometry.rotAxisDir); `_get_data_dims` (DataFormats.dataDims); `get_prj_geom_parallel` (DataFormats.parallelName, DataFormats.parallelDetShape, Geometry.prjGeomParallel); `get_prj_geom_cone` (DataFormats.coneDetShape, Geometry.prjGeomCone); `get_vol_geom_from_data` (DataFormats.Padding, DataFormats.Padding.total, DataFormats.volGeomOfData, Geometry.volGeomFromData); `get_vol_geom_from_volume` (Geometry.volGeomFromVolume).

Not modelled: `Geometry.__str__`, `ProjectionGeometry.copy`, `ProjectionGeometry.get_default_parallel`, `VolumeGeometry.is_square`, `VolumeGeometry.shape_xyz`, `VolumeGeometry.get_default_from_volume`, `plot_projection_geometry`, `plot_projection_geometry.func`.

### src/corrct/operators.py (49 of 67 functions)

Modelled: `BaseTransform.__init__` (Operators.Xform); `BaseTransform._matvec` (GhostMasks.matvecInput); `BaseTransform.rmatvec` (Operators.Xform.rmatvec); `BaseTransform._transpose` (Nuclear.SvdObj, Operators.Xform.T); `BaseTransform._adjoint` (Solvers.identityOp); `BaseTransform.absolute` (Solvers.identityOp); `BaseTransform.explicit` (Operators.explicitMatrix); `BaseTransform.__call__` (Operators.Xform.call); `TransformFunctions.__init__` (FuncOps.functionsOp); `TransformFunctions._op_direct` (FuncOps.functionsOp); `TransformFunctions._op_adjoint` (FuncOps.functionsOp, FuncOps.functionsOpSym); `TransformFunctions.absolute` (FuncOps.functionsOp); `TransformIdentity.__init__` (IntegerData.denoiseTyped, Solvers.identityOp); `TransformIdentity._op_direct` (IntegerData.denoiseTyped, Solvers.identityOp); `TransformIdentity._op_adjoint` (IntegerData.denoiseTyped, Regularizers.l1Reg, Solvers.identityOp); `TransformDiagonalScaling._op_direct` (Operators.diagonalOp); `TransformDiagonalScaling._op_adjoint` (Operators.diagonalOp); `TransformConvolution.__init__` (Denoise.psfOp, Operators.Convolution); `TransformConvolution.absolute` (Denoise.psfOp, Operators.Convolution.absolute); `TransformConvolution._pad_valid` (Denoise.psfOp, Operators.padGet, Operators.convolveSame); `TransformConvolution._crop_valid` (Denoise.psfOp, Operators.convolveSame); `TransformConvolution._op_direct` (Denoise.psfOp, Operators.convolveSame, Operators.Convolution.direct); `TransformConvolution._op_adjoint` (Denoise.psfOp, Operators.flipKernel, Operators.Convolution.adjoint, Projectors.Uncorrected); `BaseWaveletTransform._initialize_filter_bank` (DwlReg.labelNumber, DwlReg.labelMult, StationaryWavelets.FilterBank.dec, StationaryWavelets.bandMult, …); `TransformDecimatedWavelet.__init__` (DecimatedWavelets.numpyPadModes, DecimatedWavelets.dwtInitOk, DecimatedWavelets.dwtDefaultPad, DecimatedWavelets.bandShape); `TransformDecimatedWavelet.direct_dwt` (DecimatedWavelets.dwtAxis, DecimatedWavelets.dwtOp); `TransformDecimatedWavelet.inverse_dwt` (DecimatedWavelets.idwtAxis, DecimatedWavelets.dwtOpT); `TransformDecimatedWavelet._op_direct` (DecimatedWavelets.dwtOp); `TransformDecimatedWavelet._op_adjoint` (DecimatedWavelets.dwtOpT); `TransformStationaryWavelet.__init__` (StationaryWavelets.swtPadAt, StationaryWavelets.paddedShape, StationaryWavelets.swtOp, WaveletMulti.channelSwt, …); `TransformStationaryWavelet.direct_swt` (StationaryWavelets.swtAxis, StationaryWavelets.padVol, StationaryWavelets.swtOp, WaveletMulti.channelSwt, …); `TransformStationaryWavelet.inverse_swt` (StationaryWavelets.iswtAxis, StationaryWavelets.cropVol, StationaryWavelets.swtOpT, WaveletMulti.channelSwt, …); `TransformStationaryWavelet._op_direct` (StationaryWavelets.Band, StationaryWavelets.swtOp, WaveletMulti.channelSwt, Wavelets.packSwt, …); `TransformStationaryWavelet._op_adjoint` (StationaryWavelets.swtOpT, WaveletMulti.channelSwtT, Wavelets.unpackSwt, Wavelets.swtAdjoint); `TransformStationaryWavelet._op_adjoint.get_lvl_pos` (StationaryWavelets.swtOpT, WaveletMulti.channelSwtT, Wavelets.unpackSwt, Wavelets.swtAdjoint); `TransformGradient.gradient` (Operators.padGet, Operators.gradient); `TransformGradient.divergence` (Operators.padGet, Operators.divergence); `TransformGradient._op_adjoint` (Operators.gradientAdjoint); `TransformFourier.__init__` (Operators.fourier); `TransformFourier.fft` (Operators.fftKernel, Operators.fourier, Operators.fourierAdjoint); `TransformFourier.ifft` (Operators.fourierAdjoint); `TransformLaplacian.laplacian` (Operators.padGet, Operators.laplacian); `TransformLaplacian._op_direct` (Operators.laplacian); `TransformLaplacian._op_adjoint` (Operators.laplacian); `TransformSVD.__init__` (Nuclear.SvdObj, SvdAxes.argsort, SvdAxes.normAxes, SvdAxes.svdInvariant, …); `TransformSVD.direct_svd` (Nuclear.Svd, Nuclear.Svd.Valid); `TransformSVD.inverse_svd` (Nuclear.inverseSvd); `TransformSVD._op_direct` (Nuclear.svdDirect, Nuclear.SvdObj.call, SvdAxes.ravel, SvdAxes.NdL.reshape, …); `TransformSVD._op_adjoint` (Nuclear.SvdObj.adjoint, SvdAxes.ravel, SvdAxes.NdL.reshape, SvdAxes.NdL.transpose, …).

Not modelled: `BaseTransform._op_direct`, `BaseTransform._op_adjoint`, `ProjectorOperator.vol_shape`, `ProjectorOperator.prj_shape`, `ProjectorOperator.fp`, `ProjectorOperator.bp`, `ProjectorOperator._op_direct`, `ProjectorOperator._op_adjoint`, `ProjectorOperator.get_pre_weights`, `TransformDiagonalScaling.__init__`, `TransformDiagonalScaling.absolute`, `TransformGradient.__init__`, `TransformGradient._op_direct`, `TransformFourier._op_direct`, `TransformFourier._op_adjoint`, `TransformLaplacian.__init__`.

### src/corrct/param_tuning.py (21 of 36 functions)

Modelled: `format_time` (TuningHelpers.timeParts, TuningHelpers.formatTime); `PerfMeterBatch.append` (TuningHelpers.PerfBatch.append); `PerfMeterBatch.__add__` (TuningHelpers.PerfBatch.add); `PerfMeterBatch.__str__` (TuningHelpers.PerfBatch.ratio); `create_random_test_mask` (ParamTuning.randomTestMask); `create_k_fold_test_masks` (ParamTuning.kFoldMasks); `get_lambda_range` (Alignment.lambdaRange); `fit_func_min` (Alignment.parab3, Alignment.FitScale.toFit, Alignment.FitScale.fromFit, Alignment.fitStart, …); `_compute_reconstruction` (Denoise.Denoise.task, ParamTuning.Task, TuningHelpers.perfTask, TuningHelpers.reconstructionCalls); `_parallel_compute` (ParamTuning.parallelLoop, ParamTuning.parallelCompute, TuningHelpers.parallelPerf, TuningHelpers.executorCompute); `_serial_compute` (ParamTuning.serialCompute, TuningHelpers.serialPerf); `BaseParameterTuning.task_init_function` (ParamTuning.ParallelEval); `BaseParameterTuning.task_init_function` (TuningHelpers.initFunctionOk); `BaseParameterTuning.task_exec_function` (TuningHelpers.execFunctionOk); `BaseParameterTuning.process_hp_vals` (ParamTuning.ParallelEval, ParamTuning.processHpVals); `BaseParameterTuning.compute_reconstruction_error` (TuningHelpers.recErrors, TuningHelpers.reconstructionError); `LCurve.compute_loss_values` (TuningHelpers.lcurveLosses); `CrossValidation.compute_loss_values` (ParamTuning.cvCompute); `CrossValidation.compute_loss_values` (ParamTuning.cvCompute); `CrossValidation.compute_loss_values` (ParamTuning.cvLoss, ParamTuning.cvAverage, ParamTuning.cvStd, ParamTuning.cvRound, …); `CrossValidation.fit_loss_min` (ParamTuning.cvCompute).

Not modelled: `plot_cv_curves`, `BaseParameterTuning.__init__`, `BaseParameterTuning.task_exec_function`, `BaseParameterTuning.solver_spawning_function`, `BaseParameterTuning.solver_calling_function`, `BaseParameterTuning.get_lambda_range`, `BaseParameterTuning.compute_loss_values`, `LCurve.__init__`, `LCurve.compute_loss_values`, `CrossValidation.__init__`.

### src/corrct/physics/__init__.py (1 of 1 functions)

Modelled: `pencil_beam_profile` (Physics.beamIntensity, Physics.beamPoints, Physics.beamGrid, Physics.pencilBeam).

### src/corrct/physics/attenuation.py (9 of 12 functions)

Modelled: `AttenuationVolume.__init__` (Inits.DetArg.detector, Inits.DetArgs.detectors, Inits.shapesAgree, Inits.attVolShape, …); `AttenuationVolume._get_detector_angles` (Inits.detectorAngles); `AttenuationVolume._compute_attenuation_angle_in` (Projectors.attMap); `AttenuationVolume._compute_attenuation_angle_out` (Physics.subAngles, Projectors.attMap); `AttenuationVolume.compute_maps` (Projectors.Pool, Projectors.asCompleted, Projectors.attMap); `AttenuationVolume.compute_maps.process_angles` (Projectors.Pool, Projectors.asCompleted, Projectors.attMap); `AttenuationVolume.get_maps` (Physics.getMapsRot, Physics.projectorArgs); `AttenuationVolume.get_projector_args` (Physics.projectorArgs); `get_linear_attenuation_coefficient` (Physics.linearAttenuation).

Not modelled: `AttenuationVolume.plot_map`, `plot_emission_line_attenuation`, `plot_transmittance_decay`.

### src/corrct/physics/materials.py (7 of 7 functions)

Modelled: `VolumeMaterial.__init__` (Testing.phaseFractions); `VolumeMaterial.get_attenuation` (Physics.getAttenuation); `VolumeMaterial.get_phase_shift` (Physics.getPhaseShift); `VolumeMaterial.get_element_mass_fraction` (Physics.elementMassFraction); `VolumeMaterial._check_parallax_detector` (Physics.checkParallax); `VolumeMaterial.get_compton_scattering` (Testing.comptonCs, Testing.comptonScattering); `VolumeMaterial.get_fluo_production` (Physics.fluoProduction, Testing.LineTables).

### src/corrct/physics/phase.py (4 of 7 functions)

Modelled: `_tie_freq_response` (Physics.freqResponse); `_ctf_freq_response` (Physics.freqResponse); `get_propagation_filter` (Physics.freqSq, Physics.propFilter, Physics.propFilterDirect, Physics.propagationImage, …); `apply_propagation_filter` (Physics.edgePos, Physics.propagationImage, Physics.applyPropagation).

Not modelled: `get_delta_beta`, `get_delta_beta_curves`, `plot_filter_responses`.

### src/corrct/physics/units.py (4 of 8 functions)

Modelled: `ConversionMetric.convert` (Physics.convertUnit); `ConversionEnergy.convert` (Physics.convertUnit); `energy_to_wlength` (Physics.energyToWlength); `wlength_to_energy` (Physics.wlengthToEnergy).

Not modelled: `energy_to_wlength`, `wlength_to_energy`.

### src/corrct/physics/xraylib_helper.py (2 of 4 functions)

Modelled: `get_compound` (Physics.approxDensity, Physics.crossSection, Testing.phantomMaterials); `get_compound_cross_section` (Physics.crossSection).

Not modelled: `get_element_number`, `get_element_number_and_symbol`.

### src/corrct/physics/xrf.py (7 of 9 functions)

Modelled: `LinesSiegbahn.get_lines` (Physics.getLines); `_get_lines_list` (Physics.averageEnergy); `get_radiation_rate` (Physics.averageEnergy); `get_energy` (Physics.averageEnergy); `DetectorXRF.__post_init__` (Physics.DetectorXrf, Physics.detectorInit); `DetectorXRF.solid_angle_sr` (Physics.DetectorXrf.solidAngle); `DetectorXRF.angle_range_rad` (Physics.DetectorXrf.halfAngle, Physics.DetectorXrf.angleRange).

Not modelled: `get_energy`.

### src/corrct/processing/misc.py (6 of 7 functions)

Modelled: `circular_mask` (Masks.MaskTaper, Masks.maskCoord, Masks.ballDist, Masks.maskValue, …); `ball` (Masks.maskShape, Masks.ballCoord, Masks.ball); `azimuthal_integration` (Analysis.azCoord, Analysis.azRadius, Analysis.azimuthal); `lines_intersection` (Analysis.crossings, Analysis.crossPoint, Analysis.linesIntersection); `norm_cross_corr` (GhostMasks.corrProfile, Spectra.flipGet, Spectra.corrFull, Spectra.corrSize, …); `norm_cross_corr.local_sum` (Spectra.normCrossCorr, Spectra.localSum1).

Not modelled: `inspect_fourier_img`.

### src/corrct/processing/noise.py (3 of 3 functions)

Modelled: `compute_variance_poisson` (Processing.variancePoisson); `compute_variance_transmission` (Processing.varianceTransmission); `compute_variance_weight` (Processing.weightMinVal, Processing.weightFloor, Processing.invWeight, Processing.varianceWeight).

### src/corrct/processing/post.py (7 of 8 functions)

Modelled: `com` (Alignment.comLine, Alignment.comVolume); `power_spectrum` (Masks.taperedShape, Spectra.powerRing, Spectra.powerSpectrum); `compute_frc` (Analysis.frcRing, Analysis.hannSmooth, Analysis.computeFrc, Masks.taperedShape, …); `estimate_resolution` (Spectra.estimateResolution); `compute_reconstruction_bias_variance_maps` (Analysis.biasVariance); `fit_scale_bias` (Analysis.scaleBiasObj, Analysis.scaleBiasObjImage); `fit_scale_bias.obj_func` (Analysis.scaleBiasObj, Analysis.scaleBiasObjImage).

Not modelled: `plot_frcs`.

### src/corrct/processing/pre.py (10 of 11 functions)

Modelled: `pad_sinogram` (PreProc.padPair, PreProc.padSinogram); `apply_flat_field` (PreProc.applyFlatFieldStack, Processing.applyFlatField); `apply_minus_log` (Processing.applyMinusLog); `shift_proj_stack` (PreProc.shiftLinear, PreProc.shiftProjStack, PreProc.shiftFft, PreTypes.shiftProjStackTyped); `bin_imgs` (Processing.cropLo, Processing.cropHi, Processing.blockMean, Processing.binImgs); `background_from_margin` (PreTypes.marginPoints, PreTypes.background, Processing.backgroundFromMargin); `snip` (PreTypes.snipTyped, Processing.snipKernel, Processing.snip); `background_from_snip` (PreProc.backgroundFromSnip, PreProc.gaussianRow, PreTypes.backgroundFromSnipTyped); `destripe_wlf_vwu` (Destripe.stripeTarget, Destripe.stripePad, Destripe.stripeGain, Destripe.angleFilter, …); `compute_eigen_flats` (PreProc.eigenStack, PreProc.eigenFlats).

Not modelled: `rotate_proj_stack`.

### src/corrct/projectors.py (23 of 23 functions)

Modelled: `ProjectorMatrix.__init__` (Operators.MatProj, Solvers.matrixOp); `ProjectorMatrix._transpose` (Operators.MatProj, Operators.MatProj.T, Solvers.matrixOp); `ProjectorMatrix.absolute` (Operators.MatProj, Operators.MatProj.absolute, Solvers.matrixOp); `ProjectorMatrix.fp` (Operators.MatProj, Operators.MatProj.fp, Solvers.matrixOp); `ProjectorMatrix.bp` (Operators.MatProj, Operators.MatProj.bp, Solvers.matrixOp); `ProjectorUncorrected.__init__` (AstraLifecycle.dispose, Projectors.Uncorrected, XrfLifecycle.enter); `ProjectorUncorrected.angles_rot_rad` (Projectors.Uncorrected); `ProjectorUncorrected.__enter__` (Projectors.Uncorrected); `ProjectorUncorrected.__exit__` (Projectors.Uncorrected); `ProjectorUncorrected._set_psf` (Projectors.Uncorrected); `ProjectorUncorrected.get_pre_weights` (Projectors.Uncorrected); `ProjectorUncorrected.fp_angle` (Projectors.Uncorrected.scale, Projectors.Uncorrected.fpAngle); `ProjectorUncorrected.bp_angle` (Projectors.Uncorrected.scale, Projectors.Uncorrected.bpAngle); `ProjectorUncorrected.fp` (Projectors.Uncorrected.fp); `ProjectorUncorrected.bp` (Projectors.Uncorrected.bp); `ProjectorAttenuationXRF.__init__` (Projectors.Xrf, Projectors.xrfWeights, Projectors.xrfLineWeights, Projectors.xrfMapsAccepted, …); `ProjectorAttenuationXRF.__enter__` (XrfLifecycle.Config, XrfLifecycle.enter); `ProjectorAttenuationXRF.__exit__` (XrfLifecycle.Config, XrfLifecycle.exit); `ProjectorAttenuationXRF.collapse_detectors` (Projectors.Xrf.collapse, Projectors.Xrf.collapsedSlice); `ProjectorAttenuationXRF.fp_angle` (Projectors.Xrf.fpAngle, Projectors.Xrf.collapsedSlice, Projectors.xrfFpShape, Projectors.xrfLineWeights); `ProjectorAttenuationXRF.bp_angle` (Projectors.Xrf.bpAngle, Projectors.angleSliceShape, Projectors.xrfBackAccepts); `ProjectorAttenuationXRF.fp` (Projectors.Xrf.stack, Projectors.Xrf.fp, Projectors.xrfFpShape, Projectors.Pool, …); `ProjectorAttenuationXRF.bp` (Projectors.Xrf.bp, Projectors.xrfBackAccepts, XrfLifecycle.Config, XrfLifecycle.submit, …).

### src/corrct/regularizers.py (79 of 86 functions)

Modelled: `BaseRegularizer.__init__` (Regularizers.RegState); `BaseRegularizer.info` (Labels.regInfo); `BaseRegularizer.initialize_dual` (VectorSvd.vsvdReg); `BaseRegularizer.update_dual` (Nuclear.tnvReg, Nuclear.vtvReg, Regularizers.RegState.updateDual, VectorSvd.vsvdReg); `BaseRegularizer.apply_proximal_dual` (DwlReg.dwlReg, Nuclear.tnvReg, Nuclear.vtvReg, Regularizers.RegState.proxDual, …); `BaseRegularizer.apply_proximal_primal` (Regularizers.RegState.toReg); `BaseRegularizer.compute_update_primal` (DwlReg.dwlReg, Nuclear.tnvReg, Nuclear.vtvReg, Regularizers.RegState.updatePrimal, …); `Regularizer_Grad.__init__` (Nuclear.tnvReg, Nuclear.vtvReg, Regularizers.gradReg, Regularizers.NormUser, …); `Regularizer_Grad.initialize_sigma_tau` (Regularizers.gradReg); `Regularizer_Grad.apply_proximal_primal` (SolverInit.RegObj.primalProx); `Regularizer_TV1D.__init__` (Regularizers.gradReg, SolverInit.RegClass); `Regularizer_TV2D.__init__` (Regularizers.gradReg, SolverInit.RegClass); `Regularizer_TV3D.__init__` (Regularizers.gradReg, SolverInit.RegClass); `Regularizer_HubTV2D.__init__` (Regularizers.gradReg, SolverInit.RegClass); `Regularizer_HubTV3D.__init__` (Regularizers.gradReg, SolverInit.RegClass); `Regularizer_smooth1D.__init__` (Regularizers.gradReg, SolverInit.RegClass); `Regularizer_smooth2D.__init__` (Regularizers.gradReg, SolverInit.RegClass); `Regularizer_smooth3D.__init__` (Regularizers.gradReg, SolverInit.RegClass); `Regularizer_lap.__init__` (Regularizers.lapReg, SolverInit.RegClass); `Regularizer_lap.initialize_sigma_tau` (Regularizers.lapReg, SolverInit.RegClass); `Regularizer_lap.apply_proximal_primal` (SolverInit.RegClass, SolverInit.RegObj.primalProx); `Regularizer_lap1D.__init__` (SolverInit.RegClass); `Regularizer_lap2D.__init__` (SolverInit.RegClass); `Regularizer_lap3D.__init__` (SolverInit.RegClass); `Regularizer_l1.__init__` (Regularizers.l1Reg, Regularizers.NormUser); `Regularizer_l1.initialize_sigma_tau` (Regularizers.l1Reg, Regularizers.NormUser, Regularizers.transformUser); `Regularizer_l1.update_dual` (Regularizers.l1Reg); `Regularizer_l1.apply_proximal_primal` (Regularizers.l1ProxPrimal, SolverInit.RegObj.primalProx); `Regularizer_swl.info` (Labels.regInfo, WaveletMulti.normSwlReg); `Regularizer_swl.__init__` (StationaryWavelets.swlReg, WaveletMulti.normSwlReg); `Regularizer_swl.initialize_sigma_tau` (StationaryWavelets.l1norm, StationaryWavelets.bandMult, StationaryWavelets.swlSigma, StationaryWavelets.swlTau, …); `Regularizer_swl.update_dual` (StationaryWavelets.swlReg, WaveletMulti.swlUpdateDual, WaveletMulti.normSwlReg); `Regularizer_swl.apply_proximal_dual` (TransformRegs.swlProxDetails, TransformRegs.swlProxApprox, WaveletMulti.normSwlReg); `Regularizer_swl.apply_proximal_primal` (SolverInit.RegObj.primalProx, WaveletMulti.normSwlReg); `Regularizer_l1swl.__init__` (SolverInit.RegClass); `Regularizer_l12swl.__init__` (SolverInit.RegClass); `Regularizer_Hub_swl.__init__` (SolverInit.RegClass, WaveletMulti.normSwlReg); `Regularizer_dwl.info` (Labels.regInfo, SolverInit.RegClass); `Regularizer_dwl.__init__` (DwlReg.dwlReg, SolverInit.RegClass); `Regularizer_dwl.initialize_sigma_tau` (DwlReg.decFuncMult, DwlReg.dwlSteps, DwlReg.dwlTau, DwlReg.dwlReg, …); `Regularizer_dwl.update_dual` (DwlReg.dwlReg, SolverInit.RegClass); `Regularizer_dwl.apply_proximal_dual` (SolverInit.RegClass, TransformRegs.dwlProxDetails, TransformRegs.dwlProxApprox); `Regularizer_dwl.apply_proximal_primal` (DecimatedWavelets.dwlProxPrimal, DwlReg.dwlReg, Regularizers.transformProxPrimal, SolverInit.RegClass, …); `Regularizer_l1dwl.__init__` (SolverInit.RegClass); `Regularizer_l12dwl.__init__` (SolverInit.RegClass); `Regularizer_Hub_dwl.__init__` (SolverInit.RegClass); `BaseRegularizer_med.info` (Labels.regInfo, SolverInit.RegClass); `BaseRegularizer_med.__init__` (SolverInit.RegClass); `BaseRegularizer_med.initialize_sigma_tau` (SolverInit.RegClass); `BaseRegularizer_med.update_dual` (SolverInit.RegClass); `BaseRegularizer_med.apply_proximal_primal` (SolverInit.RegClass, SolverInit.RegObj.primalProx); `Regularizer_l1med.__init__` (SolverInit.RegClass); `Regularizer_l2med.__init__` (SolverInit.RegClass); `Regularizer_fft.initialize_sigma_tau` (TransformRegs.FftFilter, TransformRegs.fftSigma); `Regularizer_fft.apply_proximal_primal` (SolverInit.RegObj.primalProx, TransformRegs.fftProxPrimal); `Regularizer_TNV.__init__` (Nuclear.tnvReg); `Regularizer_TNV.initialize_sigma_tau` (Nuclear.tnvReg); `Regularizer_VTV.__init__` (Nuclear.vtvProxDualRef, Nuclear.vtvRef, Nuclear.vtvReg, Regularizers.PNorm); `Regularizer_VTV.apply_proximal_dual` (Nuclear.vtvProxDualRef, Regularizers.vtvProxDual); `Regularizer_lnswl.__init__` (WaveletMulti.bandNuclear, WaveletMulti.lnswlReg); `Regularizer_lnswl.initialize_sigma_tau` (WaveletMulti.lnswlReg); `Regularizer_vl1wl.__init__` (WaveletMulti.vl1wlReg); `Regularizer_vl1wl._raise_pwise_norm_error` (WaveletMulti.vl1wlReg); `Regularizer_vl1wl.initialize_sigma_tau` (WaveletMulti.vl1wlReg); `Regularizer_vl1wl.apply_proximal_dual` (TransformRegs.vl1wlChannels, WaveletMulti.vl1wlReg); `Regularizer_vSVD.initialize_sigma_tau` (VectorSvd.vsvdReg); `Regularizer_vSVD.apply_proximal_primal` (SolverInit.RegObj.primalProx, VectorSvd.vsvdReg); `Constraint_LowerLimit.info` (Labels.regInfo); `Constraint_LowerLimit.__init__` (Regularizers.limitNorm, Regularizers.NormUser, Regularizers.limitUser); `Constraint_LowerLimit.initialize_sigma_tau` (Regularizers.limitNorm, Regularizers.NormUser, Regularizers.limitUser); `Constraint_LowerLimit.update_dual` (Regularizers.limitUpdateDual, Regularizers.limitUser); `Constraint_LowerLimit.apply_proximal_dual` (Regularizers.limitProxDual, Regularizers.NormUser, Regularizers.limitUser); `Constraint_LowerLimit.apply_proximal_primal` (Regularizers.limitProxPrimal, SolverInit.RegObj.primalProx); `Constraint_UpperLimit.info` (Labels.regInfo); `Constraint_UpperLimit.__init__` (Regularizers.limitNorm, Regularizers.NormUser, Regularizers.limitUser); `Constraint_UpperLimit.initialize_sigma_tau` (Regularizers.limitNorm, Regularizers.NormUser, Regularizers.limitUser); `Constraint_UpperLimit.update_dual` (Regularizers.limitUpdateDual, Regularizers.limitUser); `Constraint_UpperLimit.apply_proximal_dual` (Regularizers.limitProxDual, Regularizers.NormUser, Regularizers.limitUser); `Constraint_UpperLimit.apply_proximal_primal` (Regularizers.limitProxPrimal, SolverInit.RegObj.primalProx).

Not modelled: `BaseRegularizer.upper`, `BaseRegularizer.lower`, `BaseRegularizer.initialize_sigma_tau`, `BaseRegularizer._check_primal`, `Regularizer_fft.__init__`, `Regularizer_VTV._raise_pwise_norm_error`, `Regularizer_vSVD.__init__`.

### src/corrct/solvers.py (29 of 33 functions)

Modelled: `power_method` (IntegerData.stepsOk, Solvers.powerLoop, Solvers.powerMethod); `compute_diagonal_scaling` (IntegerData.onesOk, IntegerData.sirtTyped, IntegerData.stepsOk, IntegerData.denoiseTyped, …); `compute_Lipschitz_scaling` (Solvers.lipschitzScaling); `SolutionInfo.__init__` (Solvers.Info, Solvers.Info.new); `SolutionInfo.residuals_rel` (Solvers.Info); `SolutionInfo.residuals_cv_rel` (ParamTuning.cvLoss, Solvers.Info); `Solver.__init__` (SolverInit.initTerms, Solvers.Solver); `Solver.info` (Labels.iterativeInfo); `Solver._initialize_data_fidelity_function` (SolverInit.baseTerm); `Solver._initialize_regularizer` (SolverInit.initRegularizer); `Solver._initialize_b_masks` (IntegerData.maskType, Solvers.initBMasks); `FBP.__init__` (Labels.FilterArg, Labels.fbpInfo); `FBP.info` (Labels.fbpInfo); `FBP.__call__` (Basic.clip1, Solvers.clipMask, Solvers.fbp); `SART.compute_residual` (IntegerData.sartResidualNormTyped, IntegerData.sartTyped, Solvers.sartShapesOk, Solvers.sartResidualNorm, …); `SART.__call__` (Basic.clip1, Basic.loopFrom, IntegerData.onesOk, IntegerData.sartStepTyped, …); `MLEM.info` (Labels.mlemInfo, Solvers.Err, Solvers.mlem); `MLEM.__call__` (Basic.clip1, Basic.loopFrom, IntegerData.onesOk, IntegerData.mlemTyped, …); `SIRT.__init__` (SolverInit.sirtInit, Solvers.Solver); `SIRT.info` (Labels.regsInfo, Labels.iterativeInfo); `SIRT.__call__` (Basic.clip1, Basic.loopFrom, FuncOps.functionsOp, IntegerData.castSolver, …); `PDHG.__init__` (Denoise.Denoise.solverInit, SolverInit.pdhgInit, Solvers.Solver); `PDHG.info` (Labels.regsInfo, Labels.iterativeInfo); `PDHG._initialize_data_fidelity_function` (SolverInit.pdhgTerm); `PDHG.__call__` (Basic.clip1, Basic.loopFrom, FuncOps.functionsOp, IntegerData.diagonal, …); `FISTA.__init__` (SolverInit.fistaInit, Solvers.Solver); `FISTA.info` (Labels.regsInfo, Labels.iterativeInfo); `FISTA._initialize_data_fidelity_function` (SolverInit.fistaTerm); `FISTA.__call__` (Basic.clip1, Basic.loopFrom, FuncOps.functionsOp, IntegerData.diagonal, …).

Not modelled: `Solver.upper`, `Solver.lower`, `Solver.__call__`, `MLEM.__init__`.

### src/corrct/struct_illum.py (36 of 50 functions)

Modelled: `reorder_masks` (StructIllum.reorderMasks); `decompose_qr_masks` (GhostMasks.qrShapes, StructIllum.qrBuckets); `estimate_resolution` (GhostMasks.maskResolution, GhostMasks.masksResolution); `MaskCollection.__init__` (GhostMasks.collectionAccepts, GhostMasks.maskSupport); `MaskCollection.shape_fov` (GhostMasks.shapeFov); `MaskCollection.shape_shifts` (GhostMasks.shapeShifts); `MaskCollection.num_buckets` (GhostMasks.numBuckets); `MaskCollection.num_pixels` (GhostMasks.numPixels); `MaskCollection.get_qr_decomposition` (StructIllum.qrBuckets); `MaskCollection.bin_masks` (GhostMasks.CollShape.bin); `MaskGenerator.__init__` (GhostMasks.pointMask); `MaskGenerator._init_fov_mm` (StructIllum.initFov); `MaskGenerator.generate_collection` (StructIllum.collectionShifts); `MaskGenerator._apply_transmission` (StructIllum.applyTransmission); `MaskGenerator.get_interval_shifts` (StructIllum.intervalShifts); `MaskGenerator.get_random_shifts` (StructIllum.randomShifts); `MaskGenerator.get_sequential_shifts` (StructIllum.sequentialShifts); `MaskGeneratorPoint.generate_shifted_mask` (GhostMasks.pointMask); `MaskGeneratorBernoulli.__init__` (GhostMasks.randomMaskShifts); `MaskGeneratorBernoulli.generate_shifted_mask` (GhostMasks.bernoulliMask); `MaskGeneratorHalfGaussian.__init__` (GhostMasks.randomMaskShifts); `MaskGeneratorHalfGaussian.generate_shifted_mask` (GhostMasks.halfGaussianMask); `MaskGeneratorMURA.__init__` (StructIllum.muraPoints, StructIllum.muraRow, StructIllum.muraEnc, StructIllum.muraDec); `MaskGeneratorMURA.generate_shifted_mask` (StructIllum.muraShifted); `MaskGeneratorMURA.compute_possible_mask_sizes` (StructIllum.testPrime, StructIllum.possibleSizes); `MaskGeneratorMURA.compute_possible_mask_sizes.test_prime` (StructIllum.testPrime, StructIllum.possibleSizes); `ProjectorGhostImaging.__init__` (GhostMasks.ghostOpShape); `ProjectorGhostImaging.fp` (StructIllum.ghostFp, StructIllum.ghostFpShape); `ProjectorGhostImaging.bp` (StructIllum.ghostBp, StructIllum.ghostBpShape); `ProjectorGhostImaging.adjust_sampling_scaling` (StructIllum.adjustSampling); `ProjectorGhostImaging.fbp` (GhostMasks.ghostLstsqShape, StructIllum.ghostFbpUsesBp); `ProjectorGhostImaging.absolute` (GhostMasks.ghostAbsolute); `ProjectorGhostTomography.__init__` (GhostMasks.ghostTomoOpShape, StructIllum.GhostInit, StructIllum.ghostTomoInit); `ProjectorGhostTomography.fp` (StructIllum.swapSqueeze, StructIllum.ghostTomoFpShape, StructIllum.ghostTomoFp); `ProjectorGhostTomography.bp` (StructIllum.swapSqueeze, StructIllum.ghostTomoBpShape, StructIllum.ghostTomoBp); `ProjectorGhostTomography.fbp` (GhostMasks.ghostTomoFbp).

Not modelled: `MaskCollection.info`, `MaskCollection.upper`, `MaskCollection.lower`, `MaskCollection.get_mask`, `MaskCollection.inspect_masks`, `MaskGenerator.info`, `MaskGenerator.__repr__`, `MaskGenerator.max_buckets`, `MaskGenerator.num_pixels`, `MaskGenerator.generate_shifted_mask`, `MaskGenerator._generate_mask_shifts`, `MaskGeneratorPoint.__init__`, `ProjectorGhostImaging._get_backend_device`, `ProjectorGhostImaging._init_backend`.

### src/corrct/testing.py (7 of 9 functions)

Modelled: `roundup_to_pow2` (ParamTuning.roundupToPow2); `phantom_assign_concentration` (Testing.phaseFractions, Testing.phaseNames, Testing.phantomMaterials, Testing.voxelSizeCm, …); `phantom_assign_concentration_multi` (Testing.phaseFractions, Testing.phaseNames, Testing.phantomMaterials, Testing.voxelSizeCm, …); `add_noise` (Testing.addNoise); `create_sino` (Testing.scanAngles, Testing.plainProjector, Testing.xrfProjector, Testing.sinoSolidAngle, …); `create_sino_transmission` (Testing.scanAngles, Testing.createSinoTransmission); `compute_error_power` (Testing.errorPower).

Not modelled: `download_phantom`, `create_phantom_nuclei3d`.

## 6. The properties

For each property: the plan, and what is proved. `proved` means that the theorems together give the statement
in `properties.jsonl` for the model; `partial` means that the code violates a part of it (`_violated`) or that a part is missing (`_partial`).

### C01 Training and test pixels never overlap — proved

*Plan.* Masks as functions pixel→ℝ; `initBMasks` verbatim (Option arguments). Case analysis on 0/1 values.

* `Verif.C01_masks_partition` (`Props/SolversBasic.lean`): With binary masks the training and test masks used by the solvers are binary and disjoint, their union is the user's mask, and a pixel is in the test mask only if the user put it there; a test pixel is never trained on.
* `Verif.C01_masks_passthrough` (`Props/SolversBasic.lean`): the user's mask is used unchanged and there is no test set.

### C02 Held-out data do not influence the reconstruction — partial

*Plan.* Solvers as iteration over a state record with the data term's `compute_residual`; lemma: the update depends on b only through mask·(b−Ax). Induction on iterations incl. early stop decision. MLEM: negation witness.

* `Verif.C02_sirt_isolated` (`Props/SolversBasic.lean`): data values at pixels that are masked out or in the test set change neither the reconstruction nor the iteration info (other than the test residuals), for any data term, regularizers, operator, limits and tolerance.
* `Verif.C02_fista_isolated` (`Props/SolversBasic.lean`): C02, FISTA.
* `Verif.C02_pdhg_isolated` (`Props/SolversBasic.lean`): C02, PDHG with an element-wise data term (every class except `l12` and the vector Huber norm).
* `Verif.C02_sart_isolated` (`Props/SolversBasic.lean`): data at masked-out pixels have no influence at all, for every row order.
* `Verif.C02_mlem_violated` (`Props/SolversBasic.lean`): the data are divided by the projection without applying the mask (src/corrct/solvers.py:782-789), so a masked-out pixel changes the result.
* `Verif.C02_pdhg_l12_violated` (`Props/SolversBasic.lean`): C02 does not hold for PDHG with the `l12` term: the group norm is taken before the mask is applied (src/corrct/solvers.py:1166-1172, src/corrct/data_terms.py:549-555).

### C03 Box limits are respected — partial

*Plan.* Per-solver step ends with clip then mask; induction on iterations (last executed step).

* `Verif.C03_sirt_limits` (`Props/SolversBasic.lean`): the result is within the limits if the start volume is, or if no tolerance is set and at least one iteration is made.
* `Verif.C03_mlem_limits` (`Props/SolversBasic.lean`): C03, MLEM.
* `Verif.C03_pdhg_limits` (`Props/SolversBasic.lean`): any regularizers, preconditioned or not, with or without tolerance, after at least one iteration.
* `Verif.C03_fista_limits` (`Props/SolversBasic.lean`): C03, FISTA.
* `Verif.C03_sart_limits` (`Props/SolversBasic.lean`): C03, SART, for every order of the (at least one) projections.
* `Verif.C03_fbp_limits` (`Props/SolversBasic.lean`): C03, FBP.
* `Verif.C03_sirt_early_stop_violated` (`Props/SolversBasic.lean`): if the start volume already meets the tolerance, it is returned as it is, not clipped (src/corrct/solvers.py:955-967).
* `Verif.C03_sirt_start_or_limits_partial` (`Props/SolversBasic.lean`): what is returned is the start volume as given, or it is within the limits.
* `Verif.C03_mlem_start_or_limits_partial` (`Props/SolversBasic.lean`): what is returned is the (masked) start volume, or it is within the limits.

### C04 The solution mask is respected — partial

*Plan.* Same step structure; mask multiplication is the last operation.

* `Verif.C04_sirt_mask` (`Props/SolversBasic.lean`): zero outside the solution mask.
* `Verif.C04_mlem_mask` (`Props/SolversBasic.lean`): for every iteration count, start and tolerance.
* `Verif.C04_pdhg_mask` (`Props/SolversBasic.lean`): C04, PDHG.
* `Verif.C04_fista_mask` (`Props/SolversBasic.lean`): for every iteration count.
* `Verif.C04_sart_mask` (`Props/SolversBasic.lean`): C04, SART.
* `Verif.C04_fbp_mask` (`Props/SolversBasic.lean`): C04, FBP.
* `Verif.C04_sirt_start_or_mask_partial` (`Props/SolversBasic.lean`): what is returned is the start volume as given, or it is zero outside the mask.
* `Verif.C04_sirt_early_stop_violated` (`Props/SolversBasic.lean`): a start volume that already meets the tolerance is returned as it is, not masked (src/corrct/solvers.py:955-967).

### C05 Iteration accounting and stopping — proved

*Plan.* SolutionInfo modelled with list of residuals; loop modelled as a fuel recursion with break; induction.

* `Verif.C05_sirt_accounting` (`Props/SolversAccounting.lean`): iteration count, history length, zeros after the end, stopping exactly at the first residual below the tolerance.
* `Verif.C05_mlem_accounting` (`Props/SolversAccounting.lean`): C05, MLEM.
* `Verif.C05_pdhg_accounting` (`Props/SolversAccounting.lean`): C05, PDHG.
* `Verif.C05_fista_accounting` (`Props/SolversAccounting.lean`): C05, FISTA.
* `Verif.C05_sart_accounting` (`Props/SolversAccounting.lean`): C05, SART.
* `Verif.C05_no_tolerance_runs_all` (`Props/SolversAccounting.lean`): without a tolerance all requested iterations are made (consequence of the accounting contract).
* `Verif.C05_pdhg_last_residual` (`Props/SolversAccounting.lean`): with a test set or a tolerance, the last residual recorded by PDHG is that of the returned volume (also after an early stop); `S'.term` is the data term the solver used.
* `Verif.C05_fista_last_residual` (`Props/SolversAccounting.lean`): the same for FISTA.
* `Verif.C05_sirt_stop_residual` (`Props/SolversAccounting.lean`): when SIRT stops early, the residual that triggered the stop is that of the returned volume.

### C06 Exact solutions are fixed points of the solvers — proved

*Plan.* Induction on iterations: residual is 0, clip/mask are identity.

* `Verif.C06_sirt_fixed` (`Props/SolversFixed.lean`): an admissible start volume that reproduces the training data is returned unchanged, for any operator with `Aᵀ 0 = 0`, any number of iterations, relaxation and tolerance (l2, weighted l2 and l2b data terms, no regularizer).
* `Verif.C06_fista_fixed` (`Props/SolversFixed.lean`): C06, FISTA.
* `Verif.C06_pdhg_fixed` (`Props/SolversFixed.lean`): for every data term (for Kullback-Leibler with non-negative data and steps), any step sizes.
* `Verif.C06_mlem_fixed` (`Props/SolversFixed.lean`): a start volume that reproduces positive data exactly is returned unchanged (no data masks).

### C07 SIRT never moves away from a solution — proved

*Plan.* Real non-negative matrix; weighted Cauchy–Schwarz gives Σσᵢ(Ax)ᵢ² ≤ Σ x²/τ; expand the square; projections onto box are non-expansive in diagonal norms.

* `Verif.C07_sirt_fejer` (`Props/SolversConv.lean`): SIRT on a matrix (any signs) with the plain l2 term and relaxation in [0, 2] never moves away from a solution: there are fixed positive weights `w` (the training column sums, or 1 where these are negligible) such that the weighted distance of the result to every admissible volume that reproduces the training data is at most that of the start.

### C08 MLEM keeps volumes non-negative and zeros at zero — proved

*Plan.* Sign analysis of the multiplicative update, induction.

* `Verif.C08_mlem_nonneg` (`Props/Mlem.lean`): With a back-projection that keeps non-negative data non-negative, non-negative data, start and solution mask, and upper limits (if any) not below zero, the result of MLEM is non-negative, for any number of iterations, tolerance, masks, background.
* `Verif.C08_mlem_zero` (`Props/Mlem.lean`): Voxels that are zero at the start stay zero, if zero is within the limits. No sign condition is needed.

### C09 MLEM preserves total counts — proved

*Plan.* Exchange of sums.

* `Verif.C09_mlem_counts` (`Props/Mlem.lean`): Total counts: without background, an MLEM iteration from a volume whose projections reach the division floor wherever counts were measured makes the sensitivity-weighted sum of the volume (the total of its projections) equal to the total of the data.
* `Verif.C09_mlem_counts_le` (`Props/Mlem.lean`): In every case (any non-negative background, projections above the floor or not) the total of the projections of the result never exceeds the total of the data.

### C10 MLEM never decreases the Poisson likelihood — proved

*Plan.* Jensen / log-sum inequality per pixel (EM surrogate).

* `Verif.C10_mlem_likelihood` (`Props/Mlem.lean`): EM monotonicity: an MLEM iteration from a volume whose expected counts reach the division floor wherever counts were measured keeps the expected counts positive there and never increases the Poisson negative log-likelihood, with any non-negative background.

### C11 FISTA momentum is a valid acceleration sequence — proved

*Plan.* t-recursion with restart flag; induction; negation witness for momentum after restart.

* `Verif.C11_acceleration_sequence` (`Props/FistaMomentum.lean`): The acceleration parameters satisfy the defining recursion, grow at least linearly, and the momentum factors `(t_k - 1) / t_{k+1}` lie in `[0, 1)`.
* `Verif.C11_fista_momentum` (`Props/FistaMomentum.lean`): Without restart (and without tolerance), FISTA is a plain proximal-gradient step (a run of one iteration) applied to the point extrapolated from the last two volumes with the momentum of the acceleration sequence: if `x n` is the result of the run with `n` iterations, `x (n+2)` is the result of one iteration started at `x_{n+1} + (t_n - 1)/t_{n+1} (x_{n+1} - x_n)`.
* `Verif.C11_fista_restart` (`Props/FistaMomentum.lean`): The same with a restart period `p`: the parameter is reset to 1 every `p` iterations.

### C12 FISTA refuses problems it cannot solve — proved

*Plan.* Constructor as a decision function over an algebraic type of regularizers with their primal-prox behaviour.

* `Verif.C12_fista_accepts_iff` (`Props/SolverInit.lean`): FISTA is constructed (no ValueError) exactly if both data terms are l2-based, the regularizer argument is None, a regularizer or a list of regularizers with at most one element, and the dry run of its primal proximal operator does not say "not implemented".
* `Verif.C12_fista_rejects` (`Props/SolverInit.lean`): More than one regularizer is always rejected; so are regularizers based on the gradient (TV, Huber TV, smoothness, TNV, VTV), the Laplacian, the median filter or the SVD, and l1 regularizers with a norm that has no primal proximal operator (l12, Huber, nuclear), in whatever state they are.
* `Verif.C12_accepted_can_run` (`Props/SolverInit.lean`): For regularizers that are not wavelet or Fourier based the decision is right: whatever FISTA accepts at construction, its iterations can apply.
* `Verif.C12_other_solvers` (`Props/SolverInit.lean`): SIRT takes the l2-based and the Kullback–Leibler terms, PDHG any term object; all solvers reject regularizer lists that contain something else.
* `Verif.C12_terms_in_use` (`Props/SolverInit.lean`): Every constructor that succeeds uses the data term named by its argument, for the test data the term named by the other argument (by default the same), and the given regularizers in the given order.

### C13 The power-method estimate is a lower bound that improves — proved

*Plan.* Matrix/inner-product-space model; Cauchy–Schwarz for monotonicity, operator-norm bound.

* `Verif.C13_power_method_lower_bound` (`Props/PowerMethod.lean`): The estimate of the power method never exceeds the operator norm: any `K` with `‖A x‖ ≤ K ‖x‖` for all `x`.
* `Verif.C13_power_method_monotone` (`Props/PowerMethod.lean`): More iterations (with the same random start) never give a smaller estimate.
* `Verif.C13_power_method_attained` (`Props/PowerMethod.lean`): The estimate is attained: it is at most the gain of `A` on some non-zero volume, unless it is zero.

### C14 Diagonal scaling satisfies the convergence condition — proved

*Plan.* Weighted Cauchy–Schwarz on matrices; stacked block rows for the regularizers.

* `Verif.C14_diagonal_scaling_relaxed` (`Props/Scaling.lean`): The step sizes of PDHG with preconditioning, for a matrix projector and any list of regularizers that keep their step-size contract, satisfy the convergence condition with a margin: for every volume supported on the solution mask, the `sigma`-weighted energy of the projection (over the training pixels) plus the energies of the regularizers is at most the relaxation times `∑ x_j² / tau_j`. Relaxation in `(0, 1]`; row sums, and column sums plus regularizer weights, at most `10⁵`.
* `Verif.C14_diagonal_scaling` (`Props/Scaling.lean`): The step sizes of PDHG with preconditioning, for a matrix projector and any list of regularizers that keep their step-size contract, satisfy the convergence condition: for every volume supported on the solution mask, the `sigma`-weighted energy of the projection (over the training pixels) plus the energies of the regularizers is at most `∑ x_j² / tau_j`. Relaxation in `(0, 1]`; row sums, and column sums plus regularizer weights, at most `10⁵`.

### C15 Primal updates do not corrupt dual variables — proved

*Plan.* Explicit heap of arrays, in-place `+=`/`*=` on references; frame lemma for operators that return fresh references, negation witness for identity operator.

* `Verif.C15_pdhg_duals` (`Props/Regularizers.lean`): for an operator whose back-projection is a fresh array and regularizers that keep their dual, the duals stored after a PDHG iteration are exactly the proximal points computed in it.
* `Verif.C15_pdhg_no_regularizers` (`Props/Regularizers.lean`): without regularizers the same holds also for operators returning their argument: the result of PDHG does not depend on whether they do.
* `Verif.C15_gradient_laplacian_keep` (`Props/Regularizers.lean`): the gradient and Laplacian regularizers keep their dual, for every weight, mask and norm.
* `Verif.C15_l1_keep` (`Props/Regularizers.lean`): so does the l1 regularizer with an l1-like norm and no update mask.

### C16 Dual proximal operators are exact — partial

*Plan.* Per-pixel real functions; conjugate functionals written in a small Spec file; optimality by completing squares / derivative-free inequalities (log inequality for KL).

* `Verif.Props.C16_l2` (`Props/DataTerms.lean`): l2 term.
* `Verif.Props.C16_wl2` (`Props/DataTerms.lean`): Weighted l2 term, non-negative weights; a zero weight means "no information at this pixel".
* `Verif.Props.C16_l1` (`Props/DataTerms.lean`): l1 term with a positive weight (`weight` argument, default 1).
* `Verif.Props.C16_huber` (`Props/DataTerms.lean`): Huber term (element-wise version).
* `Verif.Props.C16_kl` (`Props/DataTerms.lean`): Kullback–Leibler term (negative data are treated as zero).
* `Verif.Props.C16_l2b_partial` (`Props/DataTerms.lean`): l2-ball term: the dual update is exact for the documented functional divided by `ε`.
* `Verif.Props.C16_l1b_violated` (`Props/DataTerms.lean`): l1-ball term: the code thresholds by `ε` instead of `σ ε`, so the dual update is not the proximal operator of the conjugate of the documented functional as soon as `σ ≠ 1`.

### C17 Primal proximal operators are exact — partial

*Plan.* As C16 with the primal functionals. Ball versions: negation witness.

* `Verif.Props.C17_l2` (`Props/DataTerms.lean`): 
* `Verif.Props.C17_wl2` (`Props/DataTerms.lean`): 
* `Verif.Props.C17_l1` (`Props/DataTerms.lean`): 
* `Verif.Props.C17_kl` (`Props/DataTerms.lean`): 
* `Verif.Props.C17_kl_nodata_partial` (`Props/DataTerms.lean`): Without data the KL proximal is the exact one (`max(x - τ, 0)`) up to the floor `eps`.
* `Verif.Props.C17_l2b_violated` (`Props/DataTerms.lean`): l2-ball: a point inside the ball is moved although the documented functional is zero around it.
* `Verif.Props.C17_l1b_violated` (`Props/DataTerms.lean`): l1-ball: the result is scaled by `τ/(1+τ)` instead of being shifted.
* `Verif.Props.C17_background_violated` (`Props/DataTerms.lean`): The primal proximal operators ignore the background: with a background the result is not the proximal operator of `x ↦ f(x + background)`.

### C18 Primal and dual proximal operators agree — proved

*Plan.* Algebra on the per-pixel functions.

* `Verif.Props.C18_moreau` (`Props/DataTerms.lean`): `x = prox_{τ f}(x) + τ · prox_{f*/τ}(x/τ)` for the l2, weighted l2, l1 and KL (with data) terms.

### C19 Proximal operators are non-expansive — proved

*Plan.* From the closed forms (1-Lipschitz clip/soft-threshold; KL via monotonicity of x ↦ x−sqrt).

* `Verif.Props.C19_dual_nonexpansive` (`Props/DataTerms.lean`): The dual proximal operators of all element-wise terms are non-expansive at every pixel.
* `Verif.Props.C19_primal_nonexpansive` (`Props/DataTerms.lean`): The primal proximal operators are non-expansive (also the ball versions, which are not exact).

### C20 Slicing a data term commutes with the residual — proved

*Plan.* Data term record with Option fields of scalar-or-array; index lists.

* `Verif.Props.C20_slice_residual` (`Props/DataTerms.lean`): The residual of a sliced term is the slice of the residual, for every selection `g` of pixels.
* `Verif.Props.C20_slice_dual` (`Props/DataTerms.lean`): Likewise for the dual update and dual proximal operator of the element-wise terms.
* `Verif.Props.C20_slice_assign` (`Props/DataTerms.lean`): Slicing with a permutation/selection and assigning sliced data commute.

### C21 Residuals and background — partial

*Plan.* Element-wise functions.

* `Verif.Props.C21_masked_zero` (`Props/DataTerms.lean`): The residual is zero at every masked-out pixel (every class).
* `Verif.Props.C21_background` (`Props/DataTerms.lean`): A background is the same as adding it to the projection beforehand (every class).
* `Verif.Props.C21_l2_zero_iff` (`Props/DataTerms.lean`): l2: the residual of a perfect fit is zero, and conversely.
* `Verif.Props.C21_kl_zero_iff` (`Props/DataTerms.lean`): KL, with and without the proximal: where the projection (with background) is above the numerical floor, the residual is zero exactly at a perfect fit.
* `Verif.Props.C21_kl_gradient` (`Props/DataTerms.lean`): KL without the proximal: the residual is minus the derivative of the functional `y - b log y` at the projection plus background.
* `Verif.Props.C21_norm_sign` (`Props/DataTerms.lean`): The residual norm of the l2, weighted l2, l2-ball, l1, l12 and KL terms does not depend on the sign of the residual and is never negative.
* `Verif.Props.C21_huber_norm_violated` (`Props/DataTerms.lean`): For the Huber term the reported norm changes when the residual changes sign (three pixels, one row each): negative residuals are always treated as quadratic.

### C22 l1 and Huber dual variables stay in the dual ball — proved

*Plan.* Vector version with norms over Fin n.

* `Verif.Props.C22_l1_ball` (`Props/DataTerms.lean`): l1 and l1-ball: after the dual update every value is at most the weight.
* `Verif.Props.C22_huber_ball` (`Props/DataTerms.lean`): Huber: after the dual update every value is at most one.
* `Verif.Props.C22_l12_ball` (`Props/DataTerms.lean`): l12 (norm along an axis): after the dual update the Euclidean norm along the axis is at most the weight, for any axis length (weight constant along the axis).
* `Verif.Props.C22_huber_axis_ball` (`Props/DataTerms.lean`): Huber along an axis.
* `Verif.Props.C22_feasible_fixed` (`Props/DataTerms.lean`): Feasible duals are left in place when there is no data to subtract (l1 and l12).
* `Verif.C22_weight_once` (`Props/Regularizers.lean`): with a norm of the l1 family (l1, l12 along an axis, l1 ball) every dual value is, after the dual step, at most the weight of its pixel in absolute value, and the update of the volume does not contain the weight a second time (it is the transpose applied to the dual). With the other norms the weight is in the update of the volume and not in the dual step.

### C23 Regularizer objects are independent — proved

*Plan.* Heap of norm objects + Python default-argument object; interleaving of calls. Negation for shared default.

* `Verif.C23_independent` (`Props/NormSharing.lean`): for every family of objects, every way of sharing norm objects among them such that the sharers are compatible, and every interleaving of calls in which an object is initialised before it is used, each object computes what it computes with a norm object of its own.
* `Verif.C23_default_compatible` (`Props/NormSharing.lean`): the objects the library builds with default norms are compatible: the gradient family (l12 or l2, `sigma = 1/2`), the l1 regularizer and the wavelet regularizers (l1, any `sigma`).

### C24 Limit constraints enforce exactly their limit — proved

*Plan.* Per-pixel real functions; negation for non-zero limits in dual form.

* `Verif.C24_limit_projection` (`Props/Regularizers.lean`): the proximal of the limit constraints is the projection onto the admissible half-line — for every limit, value and step size; in particular admissible values stay and others move to the limit.
* `Verif.C24_limit_zero_dual` (`Props/Regularizers.lean`): g. non-negativity): one dual step of the constraint is the proximal step of the conjugate of half the squared distance to the admissible values; an admissible point with no accumulated dual exerts no push.

### C25 Sparsity regularisers perform soft-thresholding — proved

*Plan.* Per-pixel; optimality by cases.

* `Verif.C25_l1_prox` (`Props/Regularizers.lean`): the primal proximal of the l1 regularizer is the proximal operator of `weight * |x|` on the pixels of the update mask (all of them if there is no mask) and leaves the other pixels alone; for every value, non-negative weight, positive step size and 0/1 mask.
* `Verif.C25_l1_shrinks` (`Props/Regularizers.lean`): thresholding never flips a sign and never makes a value larger.
* `Verif.C25_transform_prox` (`Props/Regularizers.lean`): in the domain of an orthogonal transform (decimated wavelets), the primal proximal is the unique minimiser of `t ∑ |W y| + ‖y - x‖² / 2` (the sum over the penalised coefficients, e.g. without the approximation band), where `t > 0` is the threshold `tau * weight`.

### C26 Total-variation step sizes satisfy the convergence condition — proved

*Plan.* Finite-difference stencils over ZMod n / zero padded; row and column absolute sums.

* `Verif.C26_gradient_contract` (`Props/Regularizers.lean`): the published `sigma = 1/2` and `tau` keep the step-size contract of C14 for every number of axes, image shape, padding mode, norm and non-negative weight. The energy is that of the gradient, times the weight for norms that do not take the weight themselves.
* `Verif.C26_gradient_masked` (`Props/Regularizers.lean`): the same bound for every volume supported in the mask.
* `Verif.C26_laplacian_1d_contract` (`Props/Regularizers.lean`): the published `sigma = 1/4`, `tau = 4` keep the contract.

### C27 Transposes are adjoints — proved

*Plan.* Operators as matrices / functions on Fin n → ℝ, summation by parts.

* `Verif.C27_identity_diagonal` (`Props/Operators.lean`): `TransformIdentity` (src/corrct/operators.py:365-384) and `TransformDiagonalScaling`.
* `Verif.C27_matrix` (`Props/Operators.lean`): The matrix projector, and its transposed object.
* `Verif.C27_gradient` (`Props/Operators.lean`): The gradient with zero or periodic padding, along any list of axes, for any shape.
* `Verif.C27_laplacian` (`Props/Operators.lean`): The Laplacian is its own adjoint, with every padding mode, along any list of axes, for any shape.
* `Verif.C27_convolution` (`Props/Operators.lean`): A convolution with odd kernel sizes and zero or periodic padding: with `flip_adjoint` for every kernel, and with the default `flip_adjoint=False` for every centrally symmetric kernel.
* `Verif.C27_fourier` (`Props/Operators.lean`): The orthonormal Fourier transform along any set of axes.
* `Verif.C27_fourier_isometry` (`Props/Operators.lean`): The Fourier operator is an isometry: its transpose inverts it, and it preserves inner products (Parseval).

### C28 Transposing twice gives the operator back — proved

*Plan.* BaseTransform flag state machine; chains of .T as lists.

* `Verif.C28_matrix` (`Props/Transposes.lean`): Matrix projectors: transposing twice gives the object back, the transposed object projects with the adjoint map, and taking absolute values commutes with transposing.
* `Verif.C28_transpose` (`Props/Transposes.lean`): Every operator: a freshly made operator applies its direct map, its transpose the adjoint map, and each of them applies the map of the other one from the left (`rmatvec`).

### C29 Stationary-wavelet padding is invertible — proved

*Plan.* Nat arithmetic for padding, lists for packing.

* `Verif.C29_pad_amount` (`Props/Wavelets.lean`): The padding is the smallest amount that reaches a multiple of `2**level`, and it is split in two halves.
* `Verif.C29_pad_crop` (`Props/Wavelets.lean`): Padding (with any mode), then cropping, gives the image back; the padded image has every transformed axis a multiple of `2**level` and leaves the other axes alone.
* `Verif.C29_labels` (`Props/Wavelets.lean`): The labels of the detail bands: all distinct, `2**num_axes - 1` of them, and exactly the words over a/d with at least one d.
* `Verif.C29_packing` (`Props/Wavelets.lean`): Packing yields `level * (2**num_axes - 1) + 1` bands (the first entry of `adj_shape`), and unpacking restores every coefficient; conversely packing the unpacked coefficients of an array with that many bands gives the array back.
* `Verif.C29_round_trip` (`Props/Wavelets.lean`): Transforming any image and transforming back returns the image, for every shape, level, set of axes, padding mode.

### C30 explicit() returns the matrix of the operator — proved

*Plan.* Linear map applied to basis vectors.

* `Verif.C30_explicit` (`Props/Transposes.lean`): The explicit matrix of a linear operator acts like the operator.
* `Verif.C30_explicit_transpose` (`Props/Transposes.lean`): With a true adjoint, the explicit matrices of an operator and of its transpose are transposed to each other, and both represent the application.

### C31 The attenuated projector is symmetric — proved

*Plan.* Angle-wise backend maps with adjoint hypothesis; sums over angles, detectors.

* `Verif.C31_uncorrected` (`Props/Projectors.lean`): without a point spread function, the back-projection is the adjoint of the forward projection, for every number of angles and every set of projection intensities.
* `Verif.C31_xrf_angle` (`Props/Projectors.lean`): C31 (single angle of the attenuated projector).
* `Verif.C31_xrf` (`Props/Projectors.lean`): the symmetric attenuated projector.

### C32 Multi-threaded projections equal serial ones — proved

*Plan.* Tasks write to disjoint output slots / futures collected in submission order; permutations of completion.

* `Verif.C32_pool_results` (`Props/Projectors.lean`): whatever the number of workers and the order in which the tasks finish, when the pool has all the results they are those of the serial computation.
* `Verif.C32_pool_completes` (`Props/Projectors.lean`): with at least one worker, a pool can get through all its tasks.
* `Verif.C32_projection` (`Props/Projectors.lean`): the projection through the thread pool is the serial one (any number of workers, any order).
* `Verif.C32_backprojection` (`Props/Projectors.lean`): the back-projection through the thread pool is the serial one.
* `Verif.C32_maps` (`Props/Projectors.lean`): the attenuation maps do not depend on the order in which the angles complete: for every completion order containing each angle once, every map is multiplied by the result of its angle.

### C33 Attenuation factors are physical — proved

*Plan.* Discrete line sums, exp(−sum).

* `Verif.C33_monotone` (`Props/Projectors.lean`): the attenuation is monotone: larger coefficients attenuate more, at every pixel.
* `Verif.C33_vacuum` (`Props/Projectors.lean`): with no attenuation the factor is 1.
* `Verif.C33_range` (`Props/Projectors.lean`): for non-negative coefficients the factors lie in `(0, 1]`, for every volume, angle and rotation.
* `Verif.C33_product` (`Props/Projectors.lean`): the attenuation of the sum of two materials is the product of their attenuations.
* `Verif.C33_beer_lambert` (`Props/Projectors.lean`): C33, Beer–Lambert along an axis (no rotation): the factor at a pixel is `exp` of minus the sum of the coefficients of the pixels before it on its line plus half its own (the padding makes the last row of the padded slice zero).
* `Verif.C33_map_range` (`Props/Projectors.lean`): the maps of the angles and detectors lie in `(0, 1]`: product of the incident factor and of the mean over the sub-angles of the emitted ones.
* `Verif.C33_shape` (`Props/Projectors.lean`): the padding is at least one pixel on every side of every non-empty slice, and cropping gives back the original size: the maps have the shape of the volume.

### C34 Backend resources do not leak — proved

*Plan.* Lifecycle state machine with handle multiset, induction on call list.

* `Verif.Astra.C34_no_misuse` (`Props/AstraLifecycle.lean`): for every history of initialisations, `make_ready`, `dispose` (end of a `with` block), forward and back-projections, and whatever calls fail on the way, no handle is ever used or deleted when it is not live: in particular none is deleted twice, and none is used after its deletion.
* `Verif.Astra.C34_no_leak` (`Props/AstraLifecycle.lean`): for every history in which geometries are only initialised while the backend holds no projectors, and in which any data or algorithm call may fail at any point (creating projectors does not), no handle is left after `dispose`.
* `Verif.Astra.C34_projection_releases` (`Props/AstraLifecycle.lean`): the data and algorithm handles are gone after every projection, even without `dispose` and whichever of its calls failed: the live handles are exactly the projectors, one per angle if they were requested, plus one.

### C35 Volume geometry round-trips — proved

*Plan.* Lists of Nat (shape tuples).

* `Verif.C35_volume_shape_round_trip` (`Props/Geometry.lean`): The geometry derived from a volume's shape (any number of axes from two) gives that shape back.
* `Verif.C35_xyz_round_trip` (`Props/Geometry.lean`): Every XYZ shape is the one derived from its ZXY shape.
* `Verif.C35_short_rejected` (`Props/Geometry.lean`): Shapes with fewer than two axes are rejected.
* `Verif.C35_get_3d_keeps_shape` (`Props/Geometry.lean`): The 3D form of a 2D volume has one slice in front and the same X and Y; a 3D one is unchanged; the result has three axes.
* `Verif.C35_volume_from_data_projects_to_data` (`Props/Geometry.lean`): The volume derived from projection data, at any super-sampling, projects to the shape of the data: a projector made from it has the number of slices (if any) and of detector columns of the data, less the padding on either side.
* `Verif.C35_is_3d` (`Props/Values.lean`): The geometry of a volume is three-dimensional exactly if the volume has three axes and more than one slice.

### C36 Cone-beam geometry is a rigid frame — proved

*Plan.* Vectors in Fin 3 → ℝ, trigonometric identities.

* `Verif.C36_rigid_frame` (`Props/Geometry.lean`): The geometry of every cone-beam setup is a rigid frame: detector axes and normal are orthonormal, and the source is `D` from the detector plane along the normal, above the point `(v0, u0)` of the detector when there is no in-plane rotation; with or without centring in Z.
* `Verif.C36_centring` (`Props/Geometry.lean`): Centring moves source and detector together along Z, and puts the rotation axis' crossing with the central ray at height zero: the line from the source to the centre of the detector crosses the plane through the rotation axis (`x = 0`) at `z = 0`, when the detector's centre is on the other side of the axis as it should be (`c.x > 0` for the vector `c` from the detector's centre to the source).
* `Verif.C36_pixel_ratio` (`Props/Values.lean`): The ratio of pixel to voxel size of a cone-beam geometry is the distance of the source from the rotation axis over its distance from the detector along the ray through the axis: that ray, `s - t e_x`, meets the detector plane at `t` with `|t| · ratio = R`.

### C37 Rotating a geometry is rigid — proved

*Plan.* Rodrigues / axis rotation matrices on Fin 3 → ℝ.

* `Verif.C37_rotation_is_rigid` (`Props/Geometry.lean`): Rotating a geometry by any angles around any axis is rigid: at every angle there is one linear map, preserving all inner products (so lengths and angles) and fixing the rotation axis, that takes source, detector centre and detector axes to those of the rotated geometry; the kind of geometry, the axis and the scale are unchanged.
* `Verif.C37_rotating_back_restores` (`Props/Geometry.lean`): Rotating by the opposite angles restores every vector: for any number of angles, each of the rows is the original one.
* `Verif.C37_rotating_back_restores_single` (`Props/Geometry.lean`): The same for a single angle.
* `Verif.C37_rotation_angle` (`Props/Geometry.lean`): With an axis of unit length (all the geometries of the package) the angle is the given one: a vector perpendicular to the axis, turned by `x`, has inner product `cos x · |a|²` with itself before, and `sin x · |a|²` with `axis × a`.

### C38 Three-point minimum fits are exact and safe — proved

*Plan.* Real algebra on three points.

* `Verif.C38_fit_func_min` (`Props/Fits.lean`): `fit_func_min`, for any strictly increasing parameter values (positive for the logarithmic scale): there is one parabola, in the fitting scale, through the three samples around the sampled minimum (the three first or last ones if it is at an end); the result is either the sampled minimum, or the position, inside the range of the parameters, and value of the minimum of that parabola, not above the sampled minimum.
* `Verif.C38_interior_minimum` (`Props/Fits.lean`): If the sampled minimum is inside and not all the three samples are equal, the fit is not given up: the result is the parabola's minimum, and it lies between the two neighbours of the sampled minimum.
* `Verif.C38_bad_lengths` (`Props/Fits.lean`): Fewer than three values, or different numbers of values, are rejected.
* `Verif.C38_refine_max` (`Props/Fits.lean`): Sub-pixel refinement of a peak: if the middle of three samples is not below its neighbours and above one of them, the refined position is the vertex of the parabola through the samples, within half a pixel (plus the rounding); if it is refused (`ValueError`) the samples have no such peak.

### C39 Ellipse fits recover the ellipse — proved

*Plan.* Real algebra; lstsq as contract (exact solution of consistent full-rank system).

* `Verif.C39_projected_centre_tilted` (`Props/ConeSetup.lean`): `fit_ellipse_center` finds the projection of the centre of the circle on tilted detectors too, from pairs of opposite points.
* `Verif.C39_fit_recovers` (`Props/Ellipses.lean`): `fit_ellipse_parameters` on points of an ellipse whose axes are parallel to those of the detector, in general position, finds the ellipse, with or without the rescaling.
* `Verif.C39_fit_exists` (`Props/Ellipses.lean`): A result of the fit exists: the system of a least-squares fit always has a solution; here for points of an ellipse.
* `Verif.C39_evaluation` (`Props/Ellipses.lean`): `Ellipse.__call__`: the two returned values are exactly the `v` for which `(v, u)` is on the ellipse, at every `u` where there is one.
* `Verif.C39_projected_centre` (`Props/Ellipses.lean`): `fit_ellipse_center` finds the projection of the centre of the circle from pairs of opposite points of the trajectory (the centre of the circle is not projected to the centre of the ellipse).

### C40 Per-projection shifts are the displacements of the projections — proved

*Plan.* argsort as permutation contract.

* `Verif.C40_vertical_shifts` (`Props/ShiftOrder.lean`): `fit_vu`: if the projections are ordered by angle (or if their order is its own inverse, as for a list in descending order), the vertical shift of every projection is that projection's displacement from the mean, rounded: independent of the number of projections and of errors that add up along the chain.
* `Verif.C40_increasing_angles` (`Props/ShiftOrder.lean`): The order of strictly increasing angles is the identity, the one of strictly decreasing ones the reversal: both are their own inverse.
* `Verif.C40_decreasing_angles` (`Props/ShiftOrder.lean`): 
* `Verif.C40_bounded` (`Props/ShiftOrder.lean`): No returned horizontal shift is larger than the maximum (but for the rounding), whatever the fits found.
* `Verif.C40_horizontal_shifts` (`Props/ShiftOrder.lean`): The horizontal shifts, where the fitted sinusoid is the motion of the rotating object: what remains is the displacement of each projection (up to the rounding), if it is not larger than the maximum.

### C41 k-fold masks partition the pixels — proved

*Plan.* Permutation given as parameter; array_split-like slicing on lists.

* `Verif.C41_partition` (`Props/ParamTuning.lean`): Every pixel is in exactly one fold: the masks are 0/1-valued and add up to 1 at every pixel (so they are disjoint and cover the image), for every number of folds and every permutation.
* `Verif.C41_fold_sizes` (`Props/ParamTuning.lean`): The fold sizes: `N / k` or `N / k + 1` pixels, so they differ by at most one.

### C42 Random test mask size — proved

*Plan.* As C41.

* `Verif.C42_test_mask_size` (`Props/ParamTuning.lean`): A random test mask selects exactly `ceil(N * fraction)` pixels, all its values are 0 or 1, for every draw.

### C43 Parallel tuning equals serial tuning — proved

*Plan.* Futures model: map from future to index, completion order an arbitrary permutation.

* `Verif.C43_parallel_eq_serial` (`Props/ParamTuning.lean`): Parallel evaluation is serial evaluation, for any executor and any completion order: the same results in the order of the hyper-parameter values; and if a task raises, both raise an exception of one of the tasks.

### C44 The cross-validation score is the test residual of the returned reconstruction — proved

*Plan.* Residual array of SolutionInfo, negation witness with early stop.

* `Verif.C44_pdhg_score` (`Props/CrossValidation.lean`): without a tolerance, the cross-validation score is the test residual of the returned volume relative to that of the start volume. `S'.termTest` is the test data term the solver used.
* `Verif.C44_fista_score` (`Props/CrossValidation.lean`): the same; the start volume is masked first.
* `Verif.C44_test_residual` (`Props/CvTestTerm.lean`): with the l2 test term, the test residual in the scores of all iterative solvers is the squared distance, over the test pixels, between the data and the projection plus the background of the *data term* — whatever background the test term was given.

### C45 Binning conserves the mean — proved

*Plan.* Sums over Fin (b*m).

* `Verif.C45_binning` (`Props/Binning.lean`): Binning with the automatic crop by any factor `b ≥ 1`: there is a window of the image, centred up to one pixel, that each axis of size `n` leaves less than `b` pixels out of; the output has `n / b` bins per axis; each pixel of the window is in exactly one bin; each bin is the average of its `b²` pixels; and the mean of the output is the mean of the window.

### C46 Azimuthal integration conserves the sum — proved

*Plan.* Radial bins with linear weights on lists.

* `Verif.C46_azimuthal_sum` (`Props/Azimuthal.lean`): For any image, any number of axes and both domains: the profile sums to the sum of the image, its first moment is the sum of the image times the distance from the centre, and it is not negative if the image is not.

### C47 Line intersections lie on both lines — proved

*Plan.* Real algebra over segment index.

* `Verif.C47_intersection` (`Props/Analysis.lean`): For two sampled lines of the same length, or a line and a value, and any limits: if a point is returned, it is on both lines, on a segment inside the limits at whose ends the lines are in a different order, and no other such segment comes before (`"first"`) or after it (`"last"`); nothing is found if and only if there is no such segment.

### C48 SNIP background stays below the signal — proved

*Plan.* Lists/functions ℤ→ℝ with reflect/edge access; induction on iterations.

* `Verif.C48_snip_bounds` (`Props/Snip.lean`): For any signal, window, number of dimensions of the kernel and of iterations: the background is nowhere above the signal, nowhere below a lower bound of the signal (in particular, its minimum), and it does not increase with the number of iterations.

### C49 MSE decomposition — partial

*Plan.* Finite sums; negation + corrected identity.

* `Verif.C49_mse_decomposition_violated` (`Props/Analysis.lean`): The documented decomposition, `MSE = Bias² + Var`: the variance is normalised by `R - 1`, the error by `R`.
* `Verif.C49_mse_decomposition_partial` (`Props/Analysis.lean`): `MSE = Bias² + (R - 1) / R · Var`, for any number of realisations above one; so that the documented sum is never below the error, and exceeds it by `Var / R`.

### C50 Fourier ring correlation is normalised — proved

*Plan.* Cauchy–Schwarz over ring index sets with complex coefficients.

* `Verif.C50_frc_normalised` (`Props/Azimuthal.lean`): For any stacks of images of any shape, and any taper: without smoothing, or with a window of any size but 2, the values of the Fourier ring correlation are defined, and lie between 0 and 1; without smoothing, the correlation of an image with itself or with a multiple of itself is 1 on each ring that carries energy.

### C51 Filter padding is adequate — proved

*Plan.* Nat/real log; Mathlib Nat.clog or the code's log2/ceil.

* `Verif.C51_padding_size` (`Props/Filters.lean`): The padded size is a power of two, at least 64 and at least twice the size of the data; and it is the smallest such number, up to the factor two: below four times the size, unless it is 64.
* `Verif.C51_linear_convolution` (`Props/Filters.lean`): Filtering a row of `N` pixels with the transform of any even kernel `h`, given at the offsets between `-N` and `N`, is the linear convolution of the data and the kernel: nothing wraps around the borders. This is with either type of transform, and the default padding.
* `Verif.C51_unit_filter` (`Props/Filters.lean`): The unit filter, and no filter at all, return the data: for either type of transform and either padding.
* `Verif.C51_edge_padding` (`Props/FiltersEdge.lean`): With edge padding, filtering with the transform of an even kernel whose offsets are below half of the padding is the convolution of the kernel with the data continued by its first value on the left and by its last value on the right.

### C52 Data-dependent filter bases — proved

*Plan.* List of windows recursion; inner products.

* `Verif.C52_basis` (`Props/FilterBases.lean`): For any number of pixels, valid type of binning and start, the creation of the basis ends after at most `n / 2` rounds, and then: of order zero, each frequency below the largest is in exactly one window, and no frequency is in two; of order one, the functions are orthogonal to each other, none is zero, and if normalised the sum of their absolute values is one.
* `Verif.C52_default_cover` (`Props/FilterBases.lean`): With the default binning, and for the padded sizes of any data, the windows cover all the frequencies.
* `Verif.C52_window_sizes` (`Props/FilterBases.lean`): The windows follow each other without gap from `(0, 1)`; the size stays the same up to the start of the binning, and after it each window is double (exponential), one larger (incremental) or by the root of the distance from the start larger (custom) than the previous one.

### C53 Unit conversions round-trip — proved

*Plan.* Real multiplication groups.

* `Verif.C53_conversions` (`Props/Physics.lean`): Conversion factors are positive, the factor back is the inverse, and factors compose, for both kinds of units; exactly the unknown units are rejected.
* `Verif.C53_wavelength` (`Props/Physics.lean`): For a positive energy the wavelength is positive, and converting it back gives the energy, for all known units; the larger the energy, the smaller the wavelength; and a change of the units changes the number by the conversion factor.
* `Verif.C53_known_factors` (`Props/Values.lean`): The factors between neighbouring units; with the composition rule they give all factors.

### C54 XRF line energies are averages — proved

*Plan.* Weighted averages over lists.

* `Verif.C54_average_energy` (`Props/Physics.lean`): With non-negative radiation rates, the average energy of a list of lines is between any bounds of the energies of the lines that are emitted (with a positive rate): lines that the element does not have, or does not emit, have no influence. It is a number exactly if some line has a positive rate; an empty list is an error.
* `Verif.C54_families` (`Props/Physics.lean`): The lines of a family are exactly those whose name starts with it, in any case of the letters; the families of longer names are part of those of their beginnings.

### C55 MURA masks decode perfectly — proved

*Plan.* quadraticChar on ZMod p (Mathlib), character sums.

* `Verif.C55_mura_two_valued` (`Props/Mura.lean`): For a prime size `p = 4 k + 1` the correlation of the encoding with the decoding mask has one peak, at the shift zero, that is twice the constant value at all the other shifts.
* `Verif.C55_mura_decodes` (`Props/Mura.lean`): All the shifts, in the order of `get_sequential_shifts`: decoding the buckets of an image gives the image times a positive constant, plus a constant background; for every transmission.

### C56 Possible MURA sizes are complete — partial

*Plan.* Nat primality with the code's trial divisors; negation for the omitted largest candidate.

* `Verif.C56_possible_sizes_violated` (`Props/Mura.lean`): The sizes are not all the primes `4 k + 1` up to the field of view: 13 is not among the sizes for 13 pixels.
* `Verif.C56_small_fov_violated` (`Props/Mura.lean`): Below 9 pixels there is an error, although 5 is possible from 5 pixels on.
* `Verif.C56_possible_sizes_partial` (`Props/Mura.lean`): For at least 9 pixels the sizes are in increasing order and are exactly the primes `p = 4 k + 1` with `p + 4 ≤ fov`. Missing: the candidates in the last four pixels.

### C57 Shift generators — proved

*Plan.* List model of generated index grids.

* `Verif.C57_interval_shifts` (`Props/MaskShifts.lean`): For a step `k ≥ 1` and `v × u` shifts, the list holds each pair of multiples of `k` in the range exactly once.
* `Verif.C57_sequential_shifts` (`Props/MaskShifts.lean`): The `i`-th shift is the `i`-th position in row-major order; there are as many as asked for, at most all of them; they are different and inside the range.
* `Verif.C57_random_shifts` (`Props/MaskShifts.lean`): For every permutation drawn, there are as many shifts as asked for, at most all of them; they are different and inside the range.

### C58 Rounding to powers of two — proved

*Plan.* Int ceil division.

* `Verif.C58_roundup` (`Props/ParamTuning.lean`): `roundup_to_pow2` is a multiple of `2^p`, not below its argument, and the smallest such.

### C59 SIRT never increases the misfit — proved

* `Verif.C59_sirt_monotone` (`Props/SolversConv.lean`): SIRT on a matrix with the plain l2 term, no regularizer, no tolerance and relaxation in (0, 2], started at an admissible volume: one more iteration never increases the row-normalised training misfit. The weights are fixed before the number of iterations.

### C60 SIRT converges with rate 1/n — proved

* `Verif.C60_sirt_rate` (`Props/SolversConv.lean`): The same solver with relaxation in (0, 1]: after `n` iterations the misfit exceeds that of any admissible volume (in particular of a constrained least-squares solution) by at most the squared distance of the start to it divided by `2 ω n`.

### C61 FISTA converges with rate 1/n^2 — proved

* `Verif.C61_fista_unique` (`Props/ExactRecovery.lean`): then the volumes FISTA returns converge themselves (and not only their misfits and projections).
* `Verif.C61_fista_limit` (`Props/FistaLimit.lean`): FISTA (default preconditioning, no restart, relaxation in (0, 1], no tolerance) on a matrix with the plain l2 term and no regularizer, for any start, masks and limits that some volume respects: there is an admissible volume `z` of smallest row-normalised training misfit, the misfit of the volumes returned for more and more iterations tends to that of `z`, and at every pixel of non-zero weight their projections tend to the projection of `z`.
* `Verif.C61_fista_rate` (`Props/SolversConv.lean`): FISTA (default preconditioning, no restart, relaxation in (0, 1]) on a matrix with the plain l2 term and no regularizer: after `k` recorded iterations, whether or not the tolerance stopped it, the row-normalised training misfit exceeds that of any admissible volume by at most `2 dist² / (ω (k+1)²)`.
* `Verif.C61_fista_prox_rate` (`Props/SolversConv.lean`): C61, with one regularizer whose `apply_proximal_primal` is the voxel-wise proximal map of convex functions `g` (e.g. `Regularizer_l1`, see C24): the same rate for misfit plus `∑ g`.

### C62 A FISTA restart drops the momentum — partial

* `Verif.C62_restart_partial` (`Props/FistaMomentum.lean`): True part of the restart: after `(k+1) p` iterations the parameter is 1, so that the momentum of the *following* iteration is 0; and in iterations that do not end in a restart the momentum is in `[0, 1)`.
* `Verif.C62_restart_violated` (`Props/FistaMomentum.lean`): The restart itself does not drop the momentum: in the iteration that restarts, the momentum factor is `t - 1`, which is at least `(p-1)/2`, i.e. at least 1 (the volume is extrapolated by at least its whole last change) for every restart period `p ≥ 3`, instead of 0.

### C63 Every configuration FISTA accepts can be run — partial

* `Verif.C63_accepts_unusable_violated` (`Props/SolverInit.lean`): The full claim fails for wavelet and Fourier regularizers: a fresh, non-normalised stationary-wavelet regularizer (the default) and a Fourier regularizer with its default l12 norm are accepted, but the first iteration of the call raises NotImplementedError; the normalised stationary-wavelet regularizer is accepted and raises another exception.
* `Verif.C63_usable_partial` (`Props/SolverInit.lean`): Which transform-based regularizers can actually be run by FISTA: decimated wavelets and Fourier, with a norm that has a primal proximal operator; no stationary-wavelet regularizer at all.

### C64 Unpreconditioned step sizes satisfy the convergence condition — partial

* `Verif.C64_lipschitz_scaling_violated` (`Props/PowerMethod.lean`): The step sizes computed without preconditioning need not satisfy the convergence condition `sigma tau ‖A‖² ≤ relaxation²`: with an unlucky random start the estimate stays at 1 for an operator of norm 4, however many iterations are made, and the product of the step sizes is 16 times too large.
* `Verif.C64_lipschitz_scaling_partial` (`Props/PowerMethod.lean`): What holds: whenever the estimate is exact (a bound of the operator norm), the step sizes without regularizers satisfy the condition, for all relaxations `rs, rt ≥ 0` with product at most 1.

### C65 Diagonal scaling for every matrix — partial

* `Verif.C65_threshold_violated` (`Props/Scaling.lean`): Without the size restriction the condition fails: for `diag(10⁷, 50)` the weak row and column are below the threshold `10⁻⁵·max` and their sums are replaced by 1, and on the weak voxel the weighted energy is 2500 times larger than allowed.
* `Verif.C65_threshold_partial` (`Props/Scaling.lean`): Without the size restriction what remains is the condition with the sums that were actually used: if no row or column sum is below the threshold `10⁻⁵·max`, the condition holds for every matrix (no regularizers).

### C66 The default gradient's transpose is its adjoint — partial

* `Verif.C66_edge_gradient_partial` (`Props/Transposes.lean`): Exactly how far the transpose of the edge-padded gradient is from the adjoint: one boundary term for the first and one for the last positions of each axis. So it is the adjoint for arguments that vanish there.
* `Verif.C66_edge_gradient_violated` (`Props/Transposes.lean`): The default gradient operator's transpose is not its adjoint.

### C67 The convolution's transpose is its adjoint, for all options — partial

* `Verif.C67_convolution_violated` (`Props/Transposes.lean`): The transpose of a convolution is not its adjoint: (1) for `is_symm=False`; (2) with `flip_adjoint` for a kernel of even length; (3) with the default options for a symmetric kernel of length 5; (4) with the default options for an asymmetric kernel.
* `Verif.C67_default_partial` (`Props/Transposes.lean`): What holds with the default options (edge padding, no flip): kernels of lengths 1 and 3 that are symmetric under reflection of each axis.

### C68 Transposing twice works for every operator — partial

* `Verif.C68_transpose_twice_violated` (`Props/Transposes.lean`): The toolbox' base class does not satisfy it: every chain of one or more `.T` applies the adjoint map, so the twice transposed operator rejects what the operator accepts (or, for square operators, applies the adjoint).
* `Verif.C68_self_adjoint_partial` (`Props/Transposes.lean`): What holds: for operators that are their own adjoint (identity, diagonal scaling, Laplacian) any number of transposes applies the same map as the operator.

### C69 absolute() has the absolute matrix entries — partial

* `Verif.C69_matrix_absolute_partial` (`Props/Transposes.lean`): `absolute()` of a matrix projector is the operator with the absolute matrix entries; its row and column sums are what the preconditioner needs.
* `Verif.C69_convolution_absolute_partial` (`Props/Transposes.lean`): With edge padding, `absolute()` of a convolution dominates the entries of the convolution, and it is the convolution itself for kernels without negative values and default options.
* `Verif.C69_absolute_violated` (`Props/Transposes.lean`): But the absolute value of other operators is not: the gradient's `absolute()` is the gradient itself (src/corrct/operators.py:130-138), with an entry `-1`; and the absolute value of a zero-padded convolution with a non-negative kernel is a different, edge-padded, convolution (src/corrct/operators.py:471).

### C70 Cross-validation scores after early stops and for SIRT — partial

* `Verif.C70_early_stop_score` (`Props/CrossValidation.lean`): in any run that stops early (any solver with the accounting contract of C05), the score is 0 — "perfect" — whatever the test residual of the returned volume is.
* `Verif.C70_score_after_early_stop_violated` (`Props/CrossValidation.lean`): a SIRT run that stops early; the returned volume has (squared) test residual 16, but the cross-validation score is 0.
* `Verif.C70_sirt_score_partial` (`Props/CrossValidation.lean`): without a tolerance, the score is that of the volume one iteration *before* the returned one, i.e. the volume returned when asking for one iteration less. Missing: the returned volume itself, and runs that stop early.

### C71 Dual variables survive operators that return their input — partial

* `Verif.C71_identity_operator_violated` (`Props/Regularizers.lean`): the same identity map, once returning a fresh array (as a matrix does) and once returning its argument (as `TransformIdentity` does), gives different reconstructions after three iterations with the l1 regularizer.

### C72 Limit constraints with the default norm are independent — partial

* `Verif.C72_limits_default_norm_violated` (`Props/NormSharing.lean`): two lower limits 0 and 5 built with the default norm. After both are initialised, the first one computes another dual than it does with a norm of its own.
* `Verif.C72_limits_default_norm_partial` (`Props/NormSharing.lean`): limit constraints with the default norm do not interfere if their limits are equal, or if they are given norm objects of their own. Missing: different limits.
* `Verif.C72_shared_norm_violated` (`Props/NormSharing.lean`): C72 is violated by other regularizers as well: a gradient-based regularizer (step size 1/2) and an l1 or Fourier regularizer (step size 1) that are given one and the same l2 norm object.

### C73 Dual step of limit constraints for every limit — partial

* `Verif.C73_limit_dual_violated` (`Props/Regularizers.lean`): with the lower limit 1, a pixel of value 2 without accumulated dual is pushed.
* `Verif.C73_limit_dual_partial` (`Props/Regularizers.lean`): the result is the exact proximal step minus half the limit. Missing: that half.

### C74 Laplacian step sizes in every dimension — partial

* `Verif.C74_laplacian_nd_partial` (`Props/Regularizers.lean`): C74, what holds for the Laplacian along `m` axes: the energy is at most `m` times what the published `tau` allows. Missing: the factor `m`, i.e. the convergence condition itself.
* `Verif.C74_laplacian_2d_violated` (`Props/Regularizers.lean`): C74 is violated in two dimensions with the default (edge) padding: a 3 × 3 image whose weighted energy exceeds what the published `tau` allows.

### C75 Single-angle projections agree with full projections — proved

* `Verif.C75_uncorrected` (`Props/Projectors.lean`): the projection of all angles is made of the single-angle projections, and the back-projection is their sum (uncorrected projector, and symmetric attenuated projector).
* `Verif.C75_xrf` (`Props/Projectors.lean`): C75 for the attenuated projector.

### C76 Non-symmetric back-projection is consistent — partial

* `Verif.C76_bp_weights_violated` (`Props/Projectors.lean`): without `is_symmetric`, the detector weights enter the single-angle back-projection but not the one of all angles.
* `Verif.C76_bp_weights_partial` (`Props/Projectors.lean`): with all weights 1 the two agree. Missing: other weights.

### C77 Projectors with a point spread function are adjoint — partial

* `Verif.C77_psf_violated` (`Props/Projectors.lean`): with a point spread function the back-projection is not the adjoint of the forward projection.
* `Verif.C77_psf_partial` (`Props/Projectors.lean`): C77, what holds with a point spread function: the back-projection is the adjoint of the projection before blurring. Missing: the transpose of the blur.

### C78 Collapsing detectors preserves the projection — partial

* `Verif.C78_collapse_violated` (`Props/Projectors.lean`): after `collapse_detectors` the forward projection of a 2 × 1 volume sees only its first row: two volumes that differ in the second row give the same slice although their projections through the collapsed maps differ.
* `Verif.C78_collapse_first_row_partial` (`Props/Projectors.lean`): C78, the slice that is projected after `collapse_detectors`: the first row of the volume, each pixel weighted with the mean of the detectors' attenuations (`W` is the total weight). Missing: the other rows.
* `Verif.C78_collapse_partial` (`Props/Projectors.lean`): if all angle weights are 1 and the backend is linear, projecting through the collapsed maps gives the sum over the detectors of the original projections (the total detector weight is not zero). Missing: the detector axis that the code drops.

### C79 bp accepts what fp returns — partial

* `Verif.C79_shapes_violated` (`Props/Projectors.lean`): for one angle and one detector, `bp` cannot read what `fp` returned.
* `Verif.C79_shapes_partial` (`Props/Projectors.lean`): with at least two angles (2D, lines of `u` pixels), the shape is `(angles, u)` for one detector and `(detectors, angles, u)` for several, and `bp` slices lines of shape `(u,)` or `(detectors, u)` out of it. Missing: one angle.

### C80 No ASTRA handle leaks in any history — partial

* `Verif.Astra.C80_no_leak_violated` (`Props/AstraLifecycle.lean`): initialising the geometry of a backend that holds projectors loses them; so does a projector that cannot be created after others were.
* `Verif.Astra.C80_no_leak_partial` (`Props/AstraLifecycle.lean`): C80, what holds without those two restrictions: nothing is misused, and the projectors the backend still knows of are live. Missing: the ones it has forgotten.

### C81 Rotation angles do not depend on the axis' length — partial

* `Verif.C81_axis_length_scales_angle_violated` (`Props/Geometry.lean`): The rotation angle is the given one whatever the length of the rotation axis: with the axis `(0, 0, 2)`, half a turn leaves every vector where it was.
* `Verif.C81_angle_times_length_partial` (`Props/Geometry.lean`): What is true: the angle is multiplied by the length of the axis.

### C82 Slicing a rotated geometry — proved

* `Verif.C82_slice_of_rotated` (`Props/Geometry.lean`): Slicing commutes with rotating: picking angle `i` of the geometry rotated by all the angles is the geometry rotated by that angle only.
* `Verif.C82_slice_of_rotated_shifted` (`Props/Geometry.lean`): The same for a detector moved at every angle (`set_detector_shifts_vu` with as many shifts as angles).

### C83 All requested tilts are applied — partial

* `Verif.C83_tilts_dropped_violated` (`Props/Geometry.lean`): Every tilt asked for is applied or an error raised: with one axis (the default) and two angles only the first angle is used, without error.
* `Verif.C83_tilts_applied_partial` (`Props/Geometry.lean`): What is true: with as many axes as angles all the tilts are applied, in order, as rotations that keep the detector axes' inner products.
* `Verif.C83_axes_dropped_violated` (`Props/Values.lean`): With one angle and several axes the axes after the first one are dropped silently.
* `Verif.C83_single_angle_partial` (`Props/Values.lean`): A single angle is never refused: it is applied around the first axis.

### C84 Centring moves source and detector together — partial

* `Verif.C84_integer_distance_violated` (`Props/Geometry.lean`): Centring moves the source as much as the detector: not if the distance from source to rotation axis is given as an integer, where the source's shift is truncated.
* `Verif.C84_integer_distance_partial` (`Props/Geometry.lean`): What is true: with an integer distance the error is less than one pixel, and it is none if the shift is an integer.

### C85 Standard geometries project as documented — proved

* `Verif.C85_parallel_projection` (`Props/Geometry.lean`): In the standard parallel geometry, at angle `x`, a point `P` of the volume falls on the detector at `u = P.x cos x - P.y sin x` for clockwise rotation (`+` for counter-clockwise), `v = P.z`.
* `Verif.C85_source_side` (`Props/Geometry.lean`): In the standard geometries the source is, at every angle, at right angles to both axes of the detector, on the side from where the detector's axes are seen right-handed: at `u × v` for a parallel beam, and `dist` times that for a cone beam.
* `Verif.C85_half_turn_mirrors` (`Props/Geometry.lean`): Projections half a turn apart are mirror images: every point's `u` changes sign and its `v` is the same.
* `Verif.C85_directions_opposite` (`Props/Geometry.lean`): Clockwise rotation by some angles is counter-clockwise rotation by the opposite ones.
* `Verif.C85_shifts_are_detector_displacements` (`Props/Geometry.lean`): In the standard geometries, the position of the detector set by `set_detector_shifts_vu`, measured along the detector's axes (`project_displacement_to_detector`), is the given shift: `v` the vertical shift, `u` the horizontal shift plus the centre of rotation, whatever the distance along Y; also after any rotation.
* `Verif.C85_cone_projection` (`Props/Values.lean`): In the standard cone-beam geometry at angle `x`, the ray from the source through a point `P` of the volume meets the detector, which passes through the rotation axis, at the coordinates `u = m U`, `v = m P.z`: `U` is the coordinate of the parallel projection, `W` the depth of the point behind the axis and `m = D / (D + W)`, `D` the distance of the source from the axis.

### C86 Cone-beam pre-weights — partial

* `Verif.C86_pre_weights_violated` (`Props/Geometry.lean`): The pre-weight of a pixel is the distance from source to detector centre over that from source to pixel: not if the detector is away from the origin, where the code adds the positions of source and detector instead of subtracting.
* `Verif.C86_pre_weights_partial` (`Props/Geometry.lean`): What is true: with the detector at the origin, as in `get_prj_geom_cone`, and the source in front of it, the weight is that ratio of distances; it is at most one, and one exactly at the centre.
* `Verif.C86_pre_weights_rotation_partial` (`Props/Geometry.lean`): The weights do not depend on the rotation of the geometry.
* `Verif.C86_pre_weight_coords_partial` (`Props/Geometry.lean`): The coordinates given to the pixels are one pixel too spread: they run from `-s/2` to `s/2` over `s` pixels, whereas centres of pixels of unit size run from `-(s-1)/2` to `(s-1)/2`; they are symmetric.

### C87 Shifts of any number of projections can be combined — partial

* `Verif.C87_combine_shifts_violated` (`Props/Geometry.lean`): Vertical and horizontal shifts of equal number can be combined: not for a single projection.
* `Verif.C87_combine_shifts_partial` (`Props/Geometry.lean`): What is true: it works for any other number of projections, with the vertical shifts first, and raises an error on different numbers.

### C88 Every supported geometry kind is usable — partial

* `Verif.C88_fanflat_scaled_violated` (`Props/Geometry.lean`): The scaled vectors can be read for every kind of geometry: a `ValueError` for `fanflat`.
* `Verif.C88_fanflat_3d_violated` (`Props/Geometry.lean`): The 3D form of every geometry is three-dimensional: not for `fanflat`.
* `Verif.C88_other_kinds_partial` (`Props/Geometry.lean`): What is true: for the other kinds, the third coordinate is dropped exactly for 2D geometries, and the 3D form is three-dimensional: parallel beams stay parallel, and what is three-dimensional stays as it is.

### C89 Cone-beam calibration is exact — proved

* `Verif.C89_calibration_exact` (`Props/ConeCalibration.lean`): The calibration is exact: from the ellipses that the projections of two points, turning on circles of known radius `r` around the rotation axis, describe on a detector without tilt (`θ = 0`, the in-plane rotation `η` being corrected before), `fit` recovers the distance `D` of source and detector, the point `(v0, u0)` under the source, the angle `φ` of the detector and the distance `R` of source and rotation axis. The first circle is below the source; for `e = 1` the second one is above, not at the same distance, for `e = -1` it is also below.

### C90 Calibration works for symmetric phantoms — partial

* `Verif.C90_symmetric_circles_violated` (`Props/ConeCalibration.lean`): The calibration works wherever the circles are on the two sides of the source: not if they are at the same distance from it.
* `Verif.C90_measured_distance_partial` (`Props/ConeCalibration.lean`): With the measured distance of source and detector the calibration is exact for symmetric phantoms too.
* `Verif.C90_v0_from_one_ellipse_partial` (`Props/ConeCalibration.lean`): What is true: it fails only then, see `C89_calibration_exact`; the other quantities do not need the computed distance: with a measured `D`, `v0` is recovered from the first ellipse alone.

### C91 Value of the rounded parabola fit — partial

* `Verif.C91_rounded_value_violated` (`Props/Fits.lean`): `fit_parabola_min` returns a value not above the sampled minimum: its rounding to two decimals can do that, for costs that are small numbers.
* `Verif.C91_rounded_value_partial` (`Props/Fits.lean`): What is true: position (in the scale of the fit) and value are those of the parabola's minimum, up to half of a unit of the last decimal, and the position is in the range; or the sampled minimum is returned.

### C92 Decreasing lists of hyper-parameters — partial

* `Verif.C92_decreasing_parameters_violated` (`Props/Fits.lean`): The minimum is fitted whatever the order of the parameters: for decreasing values the fitted minimum is always taken as outside of the range, and the sampled one returned.
* `Verif.C92_decreasing_parameters_partial` (`Props/Fits.lean`): What is true: for decreasing parameter values the sampled minimum is returned, with its value.

### C93 Fits of tilted ellipses — partial

* `Verif.C93_tilted_ellipse_violated` (`Props/Ellipses.lean`): `fit_ellipse_parameters` finds the ellipse through the points: wrong for tilted ellipses, since the formula of the `v` of the centre has a wrong denominator.
* `Verif.C93_tilted_ellipse_partial` (`Props/Ellipses.lean`): What is true of all ellipses: the `u` of the centre is found; and the whole ellipse is, if `v` of the centre is the mean of the `v` of the points (with the rescaling), as for samples that are symmetric around the centre.

### C94 Extremes of an ellipse — partial

* `Verif.C94_extremes_violated` (`Props/Ellipses.lean`): `Ellipse.extremes_u` are the smallest and largest `u` of the ellipse: wrong for tilted ones.
* `Verif.C94_extremes_partial` (`Props/Ellipses.lean`): What is true: the values are on the ellipse's range of `u`, and they are its extremes if the axes of the ellipse are parallel to those of the detector.

### C95 Shifts of projections with unsorted angles — partial

* `Verif.C95_unsorted_angles_violated` (`Props/ShiftOrder.lean`): The shifts are returned in the order of the projections: not if the angles are not sorted, as the last line uses `angles_order` and not its inverse.
* `Verif.C95_unsorted_angles_partial` (`Props/ShiftOrder.lean`): What is true for any order of the angles: the returned list holds the right shifts, up to their order: the value at `j` is that of projection `order (order j)`.

### C96 Shifts by cross-correlation are exact — proved

* `Verif.C96_image_shift` (`Props/CrossCorrelation.lean`): `fit_shifts_vu_xc` on images: if the data image is the other one, moved by a whole number of pixels in both directions (around the borders), the shift is found exactly, sub-pixel refinement included: for all images that are not periodic, with the full transform, and with the real one if the number of columns is even.
* `Verif.C96_row_shift` (`Props/CrossCorrelation.lean`): The same for the rows of a 2-dimensional data set.
* `Verif.C96_padded_row_shift` (`Props/CrossCorrelation.lean`): With the padding (`pad_u`), for every row that is not zero, of any size and with both transforms: if the data is the other row moved by `su` pixels, and nothing leaves the detector, the shift is found exactly.

### C97 Centre of rotation from opposite projections — proved

* `Verif.C97_centre_of_rotation` (`Props/CrossCorrelation.lean`): `fit_u_180`: if the row at the opposite angle is the mirror image of the row at the first angle around a centre of rotation at `c` pixels from the middle of the detector (`2 c` is a whole number; around the borders), then `-c` is found exactly, the convention of the shifts of the package.

### C98 Real and complex transforms give the same shifts — partial

* `Verif.C98_odd_size_violated` (`Props/CrossCorrelation.lean`): The real transform, the default, gives the same shifts as the full one: wrong for an odd number of columns, as `irfftn` is called without the shape. The rows `[0, 1, 0]` and `[1, 0, 0]`.
* `Verif.C98_odd_size_partial` (`Props/CrossCorrelation.lean`): What is true: both transforms give the same shifts if the number of columns is even.

### C99 Refined positions are those of maxima — partial

* `Verif.C99_refined_is_maximum_violated` (`Props/Ranges.lean`): `refine_max_position_1d` returns the position of a maximum, or raises: for the values `1, 0, 1` it returns that of the minimum of the parabola.
* `Verif.C99_refined_is_maximum_partial` (`Props/Ranges.lean`): What is true: the returned position is that of a stationary point of the parabola through the values, up to rounding, strictly between the two neighbours; and it is a maximum if the middle value is the largest.

### C100 Ranges of hyper-parameters — proved

* `Verif.C100_aligned` (`Props/Ranges.lean`): `get_lambda_range` with `aligned_order` (the default): all the values are between the limits (with a tolerance of 0.1 % above), they are the powers `10^(k / num)`, in increasing order, and all such powers between the limits are there.
* `Verif.C100_not_aligned` (`Props/Ranges.lean`): Without `aligned_order`: the first value is `start`, each next one is larger by the factor `10^(1 / num)`, the last one is not below `stop` (up to the tolerance of 0.001 of a step), and the one before is below it.

### C101 Centres of mass and re-centring — proved

* `Verif.C101_com_inside` (`Props/Recentring.lean`): A centre of mass is inside the volume.
* `Verif.C101_com_volume` (`Props/Recentring.lean`): The centre of mass of a volume, whatever the signs of its values: along each axis it is the mean position from the centre of the volume, weighted by the absolute values; and it is inside the volume.
* `Verif.C101_com_mirror` (`Props/Recentring.lean`): The centre of mass of the mirrored line is on the other side.
* `Verif.C101_com_moves` (`Props/Recentring.lean`): If the object moves by `t` pixels inside the volume, so does the centre of mass.
* `Verif.C101_recentre` (`Props/Recentring.lean`): The shifts that `RecenterVolume.to_com` returns (before the rounding to the precision) make every point `p` of the object look as it did, when it is moved by the difference of the reference and the centre of mass; so the centre of mass is seen where the reference was. The rounding changes each shift by half of a unit at most.
* `Verif.C101_recentre_com` (`Props/Recentring.lean`): The centre of mass moves to the reference.

### C102 Incomplete bins average real pixels — partial

* `Verif.C102_binning_border_violated` (`Props/Binning.lean`): Without the automatic crop the values of the bins are averages of the pixels of the image that they cover: the incomplete bins at the border are averaged with zeros.
* `Verif.C102_binning_border_partial` (`Props/Binning.lean`): It is true of the bins that the image covers completely, in particular of all bins if the factor divides the sizes; and the sum of `b²` times all bins is the sum of all pixels in any case.

### C103 Background of order zero is the mean of the margins — partial

* `Verif.C103_background_margins_violated` (`Props/Binning.lean`): The background of order zero is the average of the pixels of the margins: with an empty right margin the whole row is summed.
* `Verif.C103_background_margins_partial` (`Props/Binning.lean`): It is true if the right margin is not empty; margins that overlap raise an error, and the others are accepted.

### C104 SNIP follows the scale of the signal — proved

* `Verif.C104_snip_equivariant` (`Props/Snip.lean`): The background commutes with changes of scale and offset of the signal, is monotone in the signal, and depends only on the pixels of the image; a constant signal is its own background.

### C105 Variance of normalised counts — proved

* `Verif.C105_variance_poisson` (`Props/Noise.lean`): For counts above the smallest ones, `compute_variance_poisson` is the first-order variance of the ratio `Is / I0`, where the variance of `Is` is `Is`, and that of `I0` is `I0` or the given one; with the normalisation it is multiplied by the mean of the reference. It is never negative, whatever the counts, for a given variance that is not.

### C106 Variance of the linearised transmission — partial

* `Verif.C106_variance_transmission_violated` (`Props/Noise.lean`): `compute_variance_transmission` is the first-order variance of the linearised attenuation `-log(Is / I0)`.
* `Verif.C106_variance_transmission_partial` (`Props/Noise.lean`): It is that variance multiplied by the transmission `Is / I0`, and by the mean of the reference with the normalisation; and it is not negative.

### C107 Weights from variances — proved

* `Verif.C107_variance_weights` (`Props/Noise.lean`): If some valid pixel has a variance that is not zero, the weights exist, for any percentile up to one and any options: one per pixel, positive at the valid pixels and zero at the others, not larger where the variance is larger; and with the normalisation the largest is one.

### C108 Flat-field correction recovers the transmission — proved

* `Verif.C108_flat_field` (`Props/Noise.lean`): Flat-field correction of an image of intensity `T` times that of the flats, over the dark current, gives the transmission `T`, whatever the flats and the dark image; and its linearisation gives back the attenuation. A cap and a lower limit only act beyond them.

### C109 Fourier ring correlation does not depend on order and scale — proved

* `Verif.C109_frc_invariant` (`Props/Azimuthal.lean`): The correlation does not depend on the order of the two images, nor on the scale (nor sign) of either of them.

### C110 Fourier ring correlation is defined for every smoothing size — partial

* `Verif.C110_frc_smoothing_violated` (`Props/Azimuthal.lean`): The correlation is defined for any size of the smoothing window: that of size 2 is zero, and its normalisation divides by zero.
* `Verif.C110_frc_smoothing_partial` (`Props/Azimuthal.lean`): It is defined for all other sizes.

### C111 Fit of scale and bias — partial

* `Verif.C111_scale_bias_partial` (`Props/Analysis.lean`): For any linear projector, image and data, the two numbers that `fit_scale_bias` gives to the minimiser are the partial derivatives of its objective, half the squared norm of `P(a x + b) - y`; a point where both are zero minimises it over all scales and biases; if the projections of the image and of the constant are not proportional, that point is unique; and for data that are exactly `P(a x + b)`, it is `(a, b)`.
* `Verif.C111_image_violated` (`Props/Analysis.lean`): the objective is then half the square of the largest singular value of the residual, of which the two numbers are not the derivatives (src/corrct/processing/post.py:460).

### C112 Filtering is linear and self-adjoint — proved

* `Verif.C112_filter_linear_selfadjoint` (`Props/Filters.lean`): Filtering is linear in the data and in the filter; and it is its own transpose, for any filter with `use_rfft`, and for any filter with the same values at opposite frequencies otherwise (with the default padding).

### C113 filter_real can be read and assigned back — partial

* `Verif.C113_filter_real_violated` (`Props/Filters.lean`): Assigning to `filter_real` the value that it has leaves the filter as it is.
* `Verif.C113_filter_real_partial` (`Props/Filters.lean`): It multiplies the entry of frequency `l` by `(-1)^l`, as the getter moves the centre to the middle and the setter expects it at the first pixel; doing it twice gives the filter back.

### C114 Filter bases cover all frequencies — partial

* `Verif.C114_basis_cover_violated` (`Props/FilterBases.lean`): The windows of order zero cover all the frequencies, for any options: without binning the largest is left out.
* `Verif.C114_basis_cover_partial` (`Props/FilterBases.lean`): All frequencies are covered if and only if the last window passes the largest one, `n / 2`; the smaller ones always are.

### C115 FilterMR fits the best filter of its basis — proved

* `Verif.C115_fitted_filter` (`Props/FilterBases.lean`): The filter that `FilterMR` fits is the best of all combinations of the functions of its basis: no other gives a smaller squared difference of the re-projected reconstruction and the data, plus the squared smoothing term. The back-projector need not be the transpose of the projector; it, the filtering and the differences are linear.

### C116 FilterMR is independent of its history — partial

* `Verif.C116_filter_history_violated` (`Props/FilterBases.lean`): What a `FilterMR` does with data does not depend on the data that it has processed before: it keeps the basis of the first ones, and fails for data with another padded size.
* `Verif.C116_filter_history_partial` (`Props/FilterBases.lean`): It does not if all data have the same padded size.

### C117 Pencil-beam profiles are normalised point spread functions — partial

* `Verif.C117_pencil_beam_violated` (`Props/PencilBeam.lean`): The profile of a pencil beam is an array of numbers: for voxels of 1/30 of a micron, and less, there is one sampling point only, outside the voxel.
* `Verif.C117_pencil_beam_partial` (`Props/PencilBeam.lean`): If the extent of the profile is more than a tenth of a micron, it is an array of non-negative numbers, that is symmetric, positive at its centre, and sums to one.
* `Verif.C117_beam_shapes` (`Props/Values.lean`): Each shape has its maximum, 1, at the centre, decreases strictly with the distance from it, and has half its maximum at half of the given full width.

### C118 Material volumes obey the mixture rules — proved

* `Verif.C118_attenuation` (`Props/Physics.lean`): The attenuation of a volume of materials does not depend on the order of the materials, adds over parts of the list (so that a mixture attenuates as much as its components), is linear in the fractions of each material, proportional to the size of the voxels, zero in empty voxels; and non-negative, and not smaller for larger fractions, if the tables, densities and fractions are not negative.
* `Verif.C118_elements` (`Props/Physics.lean`): The local densities of the elements add up to the density of the voxel: if the entries of each compound are distinct, their mass fractions sum to one, and the list of elements contains them all once, the sum of the mass fractions of the elements is the sum of the fractions of the materials times their densities.
* `Verif.C118_others` (`Props/Physics.lean`): The phase shift is independent of the order of the materials, additive, and zero in empty voxels; the fluorescence production of an element is its mass fraction times a number that is the same in all voxels, and with a detector the part of it that is the solid angle of the detector; the approximated density of a compound is between the smallest and the largest density of its elements.
* `Verif.C118_compton_cross_section` (`Props/TestingNoise.lean`): A compound known to the tables has the tabulated differential Compton cross-section; any other one the average of its elements: that of its element if there is only one, and between any bounds of them if mass fractions are non-negative and sum to 1.
* `Verif.C118_compton` (`Props/TestingNoise.lean`): The Compton production does not depend on the order of the materials, adds over parts of the list, is zero in empty voxels and non-negative if the tables, densities, fractions and voxel size are; with a detector it is the part given by the detector's solid angle of the production without one at the same angle; the energy depends on the incoming energy and the angle only; and the call fails if and only if neither an angle nor a detector is given.
* `Verif.C118_cross_section` (`Props/Values.lean`): A compound known to the tables has the tabulated cross-section; any other one the average of its elements: that of its element if there is only one, and between any bounds of them if mass fractions are non-negative and sum to 1.
* `Verif.C118_phase_shift` (`Props/Values.lean`): A voxel holding the fraction `f` of one material shifts the phase by `2π/λ · d · f · (n - 1)`, `d` its thickness and `n` the refractive index.
* `Verif.C118_linear_attenuation` (`Props/Values.lean`): `get_linear_attenuation_coefficient` with a pixel in microns is the attenuation of a volume filled with that compound whose voxels have that size, in centimetres.

### C119 Asking for an attenuation coefficient has no side effect — partial

* `Verif.C119_compound_unchanged_violated` (`Props/Physics.lean`): Asking for the linear attenuation coefficient of a compound does not change later answers for the same compound: a density that is given for one call stays in the dictionary.
* `Verif.C119_compound_unchanged_partial` (`Props/Physics.lean`): It does not if no density is given; and with a density each answer is the one for a compound of that density, proportional to it and to the size of the pixel.

### C120 XRF detector geometry — proved

* `Verif.C120_detector` (`Props/Physics.lean`): For a detector with a positive distance and non-negative surface: its fraction of the sphere is not negative, follows the inverse square law, and only depends on the ratio of surface and squared distance; its angular range is symmetric, below a right angle on each side, as seen from the sample to the middle of the edges of a square detector, and grows with the surface and shrinks with the distance.

### C121 solid_angle_sr is in steradians — partial

* `Verif.C121_steradians_violated` (`Props/Physics.lean`): `solid_angle_sr` is in steradians: a detector with the surface of the whole sphere has `4 π`.
* `Verif.C121_steradians_partial` (`Props/Physics.lean`): It is the fraction of the sphere: `4 π` times it is the surface over the squared distance, and the fractions of detectors of the same distance add up as their surfaces, to 1 for the sphere.

### C122 The parallax warning is right — partial

* `Verif.C122_parallax_violated` (`Props/Physics.lean`): The warning about parallax comes exactly if there is some: the size of the sample in cm is added to the distance in mm.
* `Verif.C122_parallax_partial` (`Props/Physics.lean`): The check is the right one for a sample ten times smaller.

### C123 Detectors with arrays of distances — partial

* `Verif.C123_distances_violated` (`Props/Physics.lean`): A detector can be made with an array of positive distances, as its annotation says.
* `Verif.C123_distances_partial` (`Props/Physics.lean`): With one distance, exactly the detectors with a non-negative surface and a positive distance can be made.

### C124 Selecting an attenuation map by index — partial

* `Verif.C124_rot_index_violated` (`Props/Physics.lean`): `get_maps(rot_ind=i)` returns the map of rotation `i`, where negative numbers count from the end.
* `Verif.C124_rot_index_partial` (`Props/Physics.lean`): It does for all numbers but `-1`, for which there is no map at all.

### C125 Projector arguments are consistent — partial

* `Verif.C125_projector_args_violated` (`Props/Physics.lean`): `get_projector_args` accepts any selection of detectors, and gives as many maps as angles.
* `Verif.C125_projector_args_partial` (`Props/Physics.lean`): For all detectors, and for a number other than `-1`, the maps and angles are those of the same detectors; with `-1` there is the angle of the last detector and no map; slices are rejected.

### C126 Sub-sampled emission angles — proved

* `Verif.C126_sub_angles` (`Props/Physics.lean`): The emission angles of a detector with a surface are as many as asked for, equally spaced, symmetric around the centre of the detector, all strictly inside its angular range; a detector without a surface has one, its centre.

### C127 Propagation filters — proved

* `Verif.C127_filters` (`Props/Phase.lean`): The filter of any type is 1 at zero frequency, and for zero distance everywhere; the TIE filter is at least 1, so that no division by zero occurs, if the material parameters are not negative; and it is the CTF filter to the second order of the propagation distance.
* `Verif.C127_images` (`Props/Phase.lean`): `apply_propagation_filter` is linear, leaves constant images as they are, and is the identity for distance zero: for images of any size, even or odd, any parameters and type of filter for which it gives numbers at all (C128).
* `Verif.C127_inversion` (`Props/Phase.lean`): On the padded grid the result is the image whose propagation gives the data: if the function returns `z`, then `z` continues to an image on the padded grid whose transform times the filter is the transform of the padded data, at every frequency. With the TIE filter the function always returns numbers, and the energy of the result is at most that of the padded data: noise is not amplified.

### C128 Propagation filters have no zeros — partial

* `Verif.C128_no_zero_violated` (`Props/Phase.lean`): No propagation filter is zero at a frequency of the image: the CTF filter may be.
* `Verif.C128_nan_violated` (`Props/Phase.lean`): With such a zero no pixel of the result is a number, whatever the image: here for images of 2 × 2 pixels.
* `Verif.C128_no_zero_partial` (`Props/Phase.lean`): The TIE filter never is, and the CTF filter is positive at all frequencies for which the product of distance, wavelength and squared frequency is below one half.

### C129 Real-space propagation filters — proved

* `Verif.C129_direct_filter` (`Props/Phase.lean`): The real-space filter is the same with both kinds of transforms, for any number of rows and an even number of columns; it is even, and sums to one.

### C130 MURA masks for every field of view — partial

* `Verif.C130_mura_any_fov_violated` (`Props/Mura.lean`): The masks that the constructor makes are not always decodable: a field of view of 9 pixels gives masks of 9 points, and the correlation is not two-valued.
* `Verif.C130_mura_any_fov_partial` (`Props/Mura.lean`): The masks have `4 k + 1` points, at least as many as asked for and less than four more; when the number is prime they decode. Missing: composite numbers, for which the constructor gives no error.

### C131 Fraction of buckets — partial

* `Verif.C131_buckets_fraction_violated` (`Props/MaskShifts.lean`): The collection does not hold the fraction of buckets asked for: the interval is applied to both axes, and a quarter of `10 × 10` buckets gives 9 of them.
* `Verif.C131_buckets_fraction_partial` (`Props/MaskShifts.lean`): With sequential or random shifts the number of buckets is the fraction of the pixels, rounded up, at most all the shifts. Missing: the interval.

### C132 Fields of view given by one number — partial

* `Verif.C132_single_fov_violated` (`Props/MaskShifts.lean`): A field of view given as one number, that the generators accept, gives masks with one axis, for which no collection can be generated.
* `Verif.C132_single_fov_all_violated` (`Props/MaskShifts.lean`): The error comes for all the types of shifts and all fractions.
* `Verif.C132_single_fov_partial` (`Props/MaskShifts.lean`): With two sizes there is a collection, the masks cover the field of view, and their pixels are not larger than asked for.

### C133 Transmission of the masks — proved

* `Verif.C133_transmission` (`Props/MaskShifts.lean`): A pixel of the mask that lets everything pass stays so; a pixel that stops everything passes `1 - t`; the others are in between, and in the same order. For `t = 1` the mask is not changed.
* `Verif.C133_transmission_bucket` (`Props/MaskShifts.lean`): The bucket of a mask with transmission is the mix of the total intensity and the bucket of the mask.

### C134 Ghost imaging adjoint — partial

* `Verif.C134_ghost_adjoint_violated` (`Props/Ghost.lean`): The back-projection is not the adjoint of the forward projection: the MURA masks decode with other masks.
* `Verif.C134_ghost_adjoint_partial` (`Props/Ghost.lean`): With the same masks for encoding and decoding it is. Missing: different decoding masks.

### C135 QR decomposition of the masks — partial

* `Verif.C135_qr_buckets` (`Props/Ghost.lean`): Linearly independent masks (the rows of `A`), and any decomposition `Aᵀ = Q R` with `Qᵀ Q = 1`: `R` can be inverted; the new buckets of data that an image explains are the values that the new masks `Qᵀ` give for this image; and the back-projection of the new buckets with the new masks explains all the buckets, also those of noisy data.
* `Verif.C135_more_masks_violated` (`Props/GhostOps.lean`): With more masks than pixels there is no decomposition: the triangular factor is not square and its inversion fails.
* `Verif.C135_shapes_partial` (`Props/GhostOps.lean`): with at most as many masks as pixels there are as many new masks and new buckets as before.

### C136 Reordering keeps masks and buckets together — partial

* `Verif.C136_reorder_pairs_violated` (`Props/Ghost.lean`): With more than one row of buckets the buckets of the rows are mixed: a mask gets the bucket of another mask.
* `Verif.C136_reorder_pairs_partial` (`Props/Ghost.lean`): With one row each mask keeps its bucket, and the order is that of the rotation by `shift`. Missing: more rows.

### C137 Adjustment for undersampling — proved

* `Verif.C137_adjust_sampling` (`Props/Ghost.lean`): The mean of the image stays, and the deviation from the mean is divided by the ratio of the buckets to the pixels.

### C138 Least-squares ghost imaging — partial

* `Verif.C138_least_squares` (`Props/Ghost.lean`): The least-squares reconstruction of the buckets of an image is the image, when no two images have the same buckets; otherwise it is an image with the same buckets.
* `Verif.C138_use_lstsq_violated` (`Props/Ghost.lean`): `use_lstsq=False` does not always give the cross-correlation: with one kind of masks the least squares are used.
* `Verif.C138_use_lstsq_partial` (`Props/Ghost.lean`): With different decoding masks the argument decides.
* `Verif.C138_stack_violated` (`Props/GhostOps.lean`): The direct reconstruction does not take stacks of buckets that the back-projection takes.

### C139 Ghost tomography shapes and adjoint — partial

* `Verif.C139_ghost_tomo_shape_violated` (`Props/Ghost.lean`): The projections that the back-projection of ghost tomography hands on do not always have the shape of the projector: for one angle an axis is lost.
* `Verif.C139_one_mask_violated` (`Props/Ghost.lean`): With one mask there is an error.
* `Verif.C139_ghost_tomo_shape_partial` (`Props/Ghost.lean`): For more than one mask, angle, row and column the shapes are right.
* `Verif.C139_ghost_tomo_adjoint` (`Props/Ghost.lean`): On the values: with one kind of masks and a tomographic projector that has its adjoint, the back-projection of ghost tomography is the adjoint of its forward projection.

### C140 Mismatching ghost tomography shapes — partial

* `Verif.C140_ghost_init_violated` (`Props/Ghost.lean`): Projections whose shape does not match the masks are not refused with the `ValueError` announced, but with an `AttributeError`: the message needs an attribute that is not yet there.
* `Verif.C140_ghost_init_partial` (`Props/Ghost.lean`): They are refused, and matching ones are accepted.

### C141 PDHG converges to a solution of the regularized reconstruction problem — proved

* `Verif.C141_pdhg_converges` (`Props/PdhgConv.lean`): PDHG with the preconditioned step sizes, for every matrix, data, background, data term with a convex functional, 0/1 masks, limits, list of regularizers that stand for convex penalties, and relaxation in (0, 1): if the reconstruction problem has a solution (and, for terms that are not finite everywhere, an admissible volume in the interior of their domain), then the volumes returned after `N` iterations converge to a solution of the problem as `N` grows, whatever the start.
* `Verif.C141_pdhg_converges_limits` (`Props/PdhgDefault.lean`): for every data term that is finite everywhere (l2, weighted l2, l2-ball, Huber, l1) the volumes returned by PDHG after `N` iterations converge to a solution of the reconstruction problem; no existence hypothesis.
* `Verif.C141_pdhg_converges_plain` (`Props/PdhgDefault.lean`): constrained convex fits.
* `Verif.C141_pdhg_converges_lsq` (`Props/PdhgL2.lean`): C141, least squares (l2 or weighted l2 term with non-negative weights) without regularizers: whatever the limits (none, one of them, both) and the solution mask, as soon as some volume is admissible, the volumes returned by PDHG converge to a constrained least-squares solution; nothing is assumed about the existence of a solution.
* `Verif.C141_l1_regularizers` (`Props/PdhgRegs.lean`): a regularizer with an l1 norm, no update mask and positive weights, whose transform and adjoint are adjoint, which keeps its dual and publishes sound step sizes, stands for the weighted l1 norm of its transform.
* `Verif.C141_l1` (`Props/PdhgRegs.lean`): the l1 regularizer.
* `Verif.C141_tv_l1` (`Props/PdhgRegs.lean`): C141, anisotropic total variation (gradient with an l1 norm), any number of axes, with zero or periodic padding.
* `Verif.C141_laplacian` (`Props/PdhgRegs.lean`): C141, Laplacian along one axis, any padding.
* `Verif.C141_tv` (`Props/PdhgRegs.lean`): C141, total variation (gradient with the default l12 norm along the derivatives), any number of axes, with zero or periodic padding. `grp` numbers the voxels: the groups of the norm are the derivatives of one voxel.
* `Verif.C141_smooth` (`Props/PdhgRegs.lean`): C141, smooth1D/2D/3D (gradient with the l2 norm): the penalty is the weight times half the squared gradient, with zero or periodic padding.
* `Verif.C141_huber_tv` (`Props/PdhgRegs.lean`): C141, Huber TV (HubTV2D/HubTV3D, any number of axes): the penalty is the weight times the Huber function of the norm of the gradient, with zero or periodic padding.

### C142 Total variation with its default padding reaches the TV minimiser — partial

* `Verif.C142_default_tv_violated` (`Props/PdhgDefault.lean`): The statement of C141 fails for total variation with its default padding ("edge"): for two pixels, the identity as operator, l2 data term and all defaults, the problem has a solution, but the returned volumes do not converge to one.

### C143 SART is consistent and with one projection is SIRT — proved

* `Verif.C143_sart_single_angle` (`Props/Sart.lean`): SART with a single angle is SIRT with the same relaxation (non-negative matrix and masks, l2 term without background, no regularizer, no tolerance): both fail, or both return the same volume.
* `Verif.C143_sart_fixed` (`Props/Sart.lean`): a start volume that satisfies limits and solution mask and reproduces the data on every pixel that the mask does not exclude is returned unchanged, for every operator, number of angles and order of the angles.

### C144 Vectorial TV: the dual step is the projection onto the dual unit ball — partial

* `Verif.C144_vtv_feasible` (`Props/Vtv.lean`): For every exponent pair, array and positive weights: the result is in the ball of the dual norm at every pixel, and entries of a pixel that is already in the ball are unchanged.
* `Verif.C144_vtv_projection_partial` (`Props/Vtv.lean`): the result is the nearest feasible point, i.e. the dual proximal map of the penalty.
* `Verif.C144_vtv_infinite_violated` (`Props/Vtv.lean`): C144 fails for an infinite exponent (the default of the channels): the array is scaled down to the border of the ball, which is not its nearest point.

### C145 Cross-validation averages — proved

* `Verif.C145_values` (`Props/CvAverages.lean`): whatever the parallelism and the completion orders in the rounds, the averages, in the order of the hyper-parameters, are the means over the test masks of the losses; the squared deviations are the means of the squared differences from these averages; and the third result lists the losses of each round.
* `Verif.C145_mask_order` (`Props/CvAverages.lean`): neither the order of the test masks nor the completion orders nor the parallelism influence averages and deviations.
* `Verif.C145_bounds` (`Props/CvAverages.lean`): each average lies between any bounds of the losses of its hyper-parameter, and the deviation is 0 exactly if all masks give the same loss.
* `Verif.C145_error` (`Props/CvAverages.lean`): a failing reconstruction in any round makes the whole evaluation raise.

### C146 Backgrounds given as arrays can be cross-validated — partial

* `Verif.C146_array_background_violated` (`Props/CvTestTerm.lean`): with an array as background no iterative solver gives a result if there is a test mask, for any operator, data, masks and settings.
* `Verif.C146_mlem_array_background_violated` (`Props/CvTestTerm.lean`): with an array as background it gives no result even without a test mask.
* `Verif.C146_background_partial` (`Props/CvTestTerm.lean`): SIRT accepts an array background without a test mask, and a number with one.

### C147 The residual norm reported for an l1 data term is the l1 norm of the residual — partial

* `Verif.C147_l1_vector_partial` (`Props/Gaps.lean`): The norm reported by the l1 term is the sum of the absolute values.
* `Verif.C147_l1_image_partial` (`Props/Gaps.lean`): For two-dimensional data it is the largest of the sums of the columns: every column is below it, and one of them attains it. So it is at most the sum over the image, and it is zero only for a zero residual.
* `Verif.C147_l1_image_violated` (`Props/Gaps.lean`): one row of two pixels; the reported norm is not the sum of the absolute values (src/corrct/data_terms.py:584, no `flatten`).
* `Verif.C147_flattened_partial` (`Props/Gaps.lean`): The squared norms of l2 and the norm of KL do not depend on the shape.

### C148 The primal-dual gap bounds the distance from the optimum — partial

* `Verif.C148_l1_partial` (`Props/Gaps.lean`): For a dual variable between -1 and 1 that is feasible, the reported gap bounds how far the functional is from its minimum; in particular, it is not negative.
* `Verif.C148_kl_partial` (`Props/Gaps.lean`): The value returned by the KL term for a dual variable is the divergence of the projection from the data: it does not depend on the dual variable, is not negative, and vanishes only if the projection reproduces the data.
* `Verif.C148_l2_violated` (`Props/Gaps.lean`): the norms are not squared, and the gap of a primal-dual solution is negative (src/corrct/data_terms.py:326-331).
* `Verif.C148_l1_background_violated` (`Props/Gaps.lean`): the background is added twice (src/corrct/data_terms.py:589-592).
* `Verif.C148_background_twice_violated` (`Props/Gaps.lean`): **C148 is violated by l1 and Huber with a background**: the reported gap is that of the term without background at the projection plus *twice* the background.
* `Verif.C148_l1b_violated` (`Props/Gaps.lean`): the term for the radius of the ball is missing (src/corrct/data_terms.py:586-595).
* `Verif.C148_mask_violated` (`Props/Gaps.lean`): the product with the data ignores it (src/corrct/data_terms.py:326-331, 595), so that the gap of the l1 term depends on data of pixels that are masked out.

### C149 The nuclear-norm dual step is the projection on the spectral-norm ball — proved

* `Verif.C149_nuclear_projection` (`Props/Nuclear.lean`): For every array of channel-by-derivative matrices and every singular value decomposition of them, the dual step of the nuclear norm replaces each pixel's matrix by the nearest matrix of spectral norm at most one.
* `Verif.C149_independent_of_svd` (`Props/Nuclear.lean`): The result does not depend on which decomposition the linear algebra library returns.

### C150 Data given to the nuclear-norm term are coupled and left unchanged — partial

* `Verif.C150_bias_row_partial` (`Props/Nuclear.lean`): the result is the nearest-matrix projection of the matrix with the bias row appended, without that row.
* `Verif.C150_bias_rows_violated` (`Props/Nuclear.lean`): the call fails whatever the decomposition.

### C151 A reference given to a multi-channel regularizer takes part in the coupling — partial

* `Verif.C151_tnv_reference_violated` (`Props/Nuclear.lean`): whatever the reference volume is, the regularizer is the same.
* `Verif.C151_vtv_flat_reference_partial` (`Props/Nuclear.lean`): a reference without edges is no reference, for every pair of exponents.
* `Verif.C151_vtv_reference_shrinks_partial` (`Props/Nuclear.lean`): adding a reference never makes a component of the result larger.
* `Verif.C151_vtv_reference_channel_partial` (`Props/Nuclear.lean`): the first step with a reference is the step for the volume with the reference as one more channel (`X none` is the reference), for every pair of exponents.

### C152 The reported norm of the nuclear term is the sum of the nuclear norms — partial

* `Verif.C152_single_matrix_partial` (`Props/Nuclear.lean`): the reported norm is the nuclear norm.
* `Verif.C152_line_upper_bound_partial` (`Props/Nuclear.lean`): the reported value is at most the sum of the nuclear norms.
* `Verif.C152_stack_violated` (`Props/Nuclear.lean`): C152 is violated for a line of pixels (the norm of the stack is a maximum over singular value ranks) and for images (the call raises `ValueError`).

### C153 The SVD operator inverts itself for any choice of axes — proved

* `Verif.C153_svd_round_trip` (`Props/SvdAxes.lean`): For every array, every choice of distinct row and column axes (negative ones count from the end), with and without rescaling and for whatever decompositions the library returns: applying the transpose to the singular values just computed gives back the array, in its shape.

### C154 The transpose of the SVD operator works whenever it was taken — partial

* `Verif.C154_transpose_after_partial` (`Props/SvdAxes.lean`): The transpose taken after the operator was applied restores the matrix.
* `Verif.C154_given_values_partial` (`Props/SvdAxes.lean`): The transpose works on the singular values it is given, not on the stored ones: multiplied by a factor each, they give the volume of the same vectors with those values.
* `Verif.C154_transpose_before_violated` (`Props/SvdAxes.lean`): the transpose of a new operator, taken before the operator was applied, fails (`op.T` is a copy). And one taken after the operator was applied to something else restores with the other's vectors.

### C155 The l12 norm couples exactly the orientations of a wavelet level — partial

* `Verif.C155_one_level_partial` (`Props/TransformRegs.lean`): exactly the orientations at one position are shrunk jointly.
* `Verif.C155_levels_mixed_violated` (`Props/TransformRegs.lean`): C155 is violated with two levels and three orientations (two axes): bands of different levels are shrunk together.
* `Verif.C155_decimated_details_partial` (`Props/TransformRegs.lean`): the details of a level are shrunk jointly over the orientations.
* `Verif.C155_stationary_approx_partial` (`Props/TransformRegs.lean`): C155, approximation band of the stationary transform: every coefficient by itself, to the interval `[-w, w]`.
* `Verif.C155_decimated_approx_violated` (`Props/TransformRegs.lean`): C155 is violated by the decimated transform's approximation band: its columns are shrunk jointly.

### C156 The primal step of the Fourier regularizer is the proximal operator of its penalty — partial

* `Verif.C156_delta_prox_partial` (`Props/TransformRegs.lean`): C156 for the filter "delta" and one threshold: the result is the unique minimiser of `t · penalty(y) + ‖y - x‖² / 2`, for any image, shape and set of axes.
* `Verif.C156_exp_violated` (`Props/TransformRegs.lean`): two pixels, `1` and `-1`; the result has a larger value than the zero image.

### C157 Step sizes of the decimated wavelet regularizer fulfil the convergence condition — partial

* `Verif.C157_steps_preceding` (`Props/DwlReg.lean`): C157, the values of the dual steps for all wavelets: a detail band has the l1 norms of the filters of the band before, of the letters of its label and of the approximations of the finer levels.
* `Verif.C157_steps_value` (`Props/DwlReg.lean`): C157, the values of the dual steps for orthogonal wavelets, `p` being the l1 norm of the low-pass filter to the power of the number of axes: that of the approximation is `p ^ level`, those of the details of level `i` (0: the finest) `p ^ (i + 1)`, except that the first label of every level but the coarsest has the step of the next coarser level.
* `Verif.C157_step_contract_partial` (`Props/DwlReg.lean`): if the l1 norm of the low-pass filter to the power of the number of axes times the number of levels is at most the weight that the regularizer publishes, the step sizes keep the contract. (Missing: the other cases, where they do not.)
* `Verif.C157_three_levels_partial` (`Props/TransformRegs.lean`): C157 for two-dimensional Haar wavelets and at most three levels: `lo`, `mult` are computed from the filters' l1 norms `√2`.
* `Verif.C157_deep_violated` (`Props/TransformRegs.lean`): C157 is violated for every orthogonal transform with four or more levels and an approximation coefficient.

### C158 The vectorial wavelet regularizer keeps every channel when given a reference — partial

* `Verif.C158_matching_partial` (`Props/TransformRegs.lean`): C158 when the number of bands is one more than the number of channels: every channel is kept.
* `Verif.C158_channels_violated` (`Props/TransformRegs.lean`): with one level in two dimensions (four bands) and two channels the call fails; and with one level in one dimension (two bands) and any number of channels above one, all channels become the first.

### C159 Regions around peaks — proved

* `Verif.C159_line_peaks` (`Props/AlignPre.lean`): along either axis, the extracted values of a line are those around its first maximum, continued around the borders, and so are their coordinates.
* `Verif.C159_array_peak` (`Props/AlignPre.lean`): the central value is the largest of the array, at a valid position, and the other values are those at the positions around it, continued around the borders.

### C160 Two-dimensional peak refinement finds the vertex — partial

* `Verif.C160_vertex_partial` (`Props/AlignPre.lean`): C160 with given coordinates, or with three samples: for samples of a polynomial of degree two with a single stationary point, that point is returned if it is inside the ranges of the coordinates, otherwise an error is raised.
* `Verif.C160_default_coordinates_violated` (`Props/AlignPre.lean`): C160 is violated by the default coordinates of more than three samples: the maximum of `-(y - 1/2)² - x²`, sampled at the default coordinates of a 5 × 5 region, is said to be at `(1/4, 0)`.

### C161 Shifts by sums of absolute differences — partial

* `Verif.C161_sad_shift_partial` (`Props/AlignPre.lean`): a row that was displaced by a whole number of pixels, smaller than the search range, and that is zero at both ends, gives that displacement exactly, for every padded fit, every error norm and every precision.
* `Verif.C161_without_padding_violated` (`Props/AlignPre.lean`): C161 is violated without `pad_u`, which is the default: no row at all has a result.
* `Verif.C161_range_end_violated` (`Props/AlignPre.lean`): C161 is violated at the end of the search range, where the next shift is taken from the other end: the row `0 1 1 0 0`, displaced by one pixel, with a range of one pixel, does not give one pixel.

### C162 Pre-alignment by a sinusoid — proved

* `Verif.C162_background` (`Props/AlignPre.lean`): what is given as background is taken off the projection, and what is below it counts as nothing; so adding a constant to a projection and to its background changes nothing.
* `Verif.C162_reference_moves` (`Props/AlignPre.lean`): if the bright object of a projection moves by `t` pixels inside the detector, its reference point moves by `-t`, with both methods.
* `Verif.C162_aligned` (`Props/AlignPre.lean`): if the reference points of the projections lie on a sinusoid around the centre of rotation `B`, and three of the angles are different directions, every least-squares fit gives no shifts, and the centre `B` rounded.
* `Verif.C162_limits` (`Props/AlignPre.lean`): no shift exceeds the largest one that is allowed, but for the rounding.

### C163 Centre of rotation of a full scan — partial

* `Verif.C163_opposite_pairs_partial` (`Props/AlignPre.lean`): if every projection of the first half turn has an opposite one, every comparison is between opposite projections, and every projection of the first half turn is compared once.
* `Verif.C163_centre_partial` (`Props/AlignPre.lean`): if opposite projections are mirror images around the centre of rotation (a multiple of half a pixel from the centre of the detector, the shift being allowed), that centre is returned.
* `Verif.C163_angle_order_violated` (`Props/AlignPre.lean`): C163 is violated by a full scan whose angles are not in increasing order: projections that are not opposite are compared.

### C164 Drifts of an image stack — proved

* `Verif.C164_drifts` (`Props/AlignPre.lean`): with one reference image, or as many as there are images, the drift of every image from its reference is recovered exactly, in the order of the images; any other number of references is an error.

### C165 Padding a sinogram — proved

* `Verif.C165_pad_sinogram` (`Props/PreProc.lean`): `pad_sinogram` lengthens the chosen axis (counted from the start or from the end) by the widths before and after, and only it; the original values are found, unchanged, behind the first width; the values added before (after) are those of the first (last) original position along that axis; one number is the same as twice that number; axes that do not exist, and widths that are neither one nor two numbers, are errors.

### C166 Shifting projections by interpolation — proved

* `Verif.C166_shift_projections` (`Props/PreProc.lean`): `shift_proj_stack` without Fourier transforms: projections are shifted independently of one another, each by its own shift; a shift by whole pixels moves every value by exactly that many pixels, repeating the border where nothing is known (so no shift is no change); any shift keeps the values within the range of the projection; it is linear in the projection. Along one axis, a shift by a fraction `f` of a pixel takes the fraction `f` of the previous pixel and `1 - f` of the pixel itself.
* `Verif.C166_fraction` (`Props/PreProc.lean`): a row, away from its borders.

### C167 Shifting projections in Fourier space — partial

* `Verif.C167_fft_shift_violated` (`Props/PreProc.lean`): Projections with an odd number of columns cannot be shifted with `use_fft=True`, by any shift: it raises `ValueError`.
* `Verif.C167_fft_shift_partial` (`Props/PreProc.lean`): With an even number of columns, `shift_proj_stack(..., use_fft=True)` moves a projection by whole pixels to exactly where it should be, with what leaves at one side entering at the opposite one; and by any shift, whole or not, it keeps the sum of the projection.

### C168 Several dark images — partial

* `Verif.C168_several_darks_violated` (`Props/PreProcCorr.lean`): Several dark images are not averaged, while several flat images are: with two projections and three dark images there is an error; with two projections and two dark images, each projection gets one of them.
* `Verif.C168_several_darks_partial` (`Props/PreProcCorr.lean`): With one dark image (or several equal ones, as many as the projections and the flat images), the projections are those minus the dark image over the mean flat image minus the dark image; the number of projections does not change.

### C169 Background by SNIP — partial

* `Verif.C169_smoothing` (`Props/PreProcCorr.lean`): The smoothing before the background keeps the values between the bounds of the row (hence constants as they are), keeps the total of the row, and commutes with the reversal of the row, for every row and width.
* `Verif.C169_snip_background_violated` (`Props/PreProcCorr.lean`): With a smoothing that is not trivial (`smooth_std` of at least an eighth of a pixel), whatever its width and the number of iterations, the background of a projection with a dip is above the projection: here a row of three pixels `1, 0, 1`.
* `Verif.C169_snip_background_partial` (`Props/PreProcCorr.lean`): Each projection of the stack is treated on its own; without smoothing the background is nowhere above the projection, nowhere below its minimum, follows changes of scale and offset, and is the projection itself where that is constant. With smoothing all this holds of the background of the smoothed projections.

### C170 Eigen flat fields — proved

* `Verif.C170_eigen_flats` (`Props/PreProcCorr.lean`): `compute_eigen_flats` factorises every transmission: at each pixel `eigen_projs * eigen_flats` is the dark-corrected (clipped) transmission, and both factors are positive; the logarithm of the eigen-flats is a single profile times one number per image (rank one); and if the images have no other content, i.e. the logarithms of all of them are one profile times numbers, the eigen-projections are 1. For every decomposition that `np.linalg.svd` may return; without dark images, for positive images.

### C171 Circular masks — partial

* `Verif.C171_circular_mask_violated` (`Props/Masks.lean`): The tapered mask with the default offset and target (`circular_mask(shape, taper_func="cos")`) is NaN at every pixel of every volume.
* `Verif.C171_circular_mask_partial` (`Props/Masks.lean`): Unless the taper has no width, every pixel of `circular_mask` has a value, between 0 and 1. It is the mean over its `ss ^ d` sub-pixels of: without taper, 1 within the radius (half the smallest chosen size plus the offset) and 0 outside; with taper, 1 within the radius (if the cut-off is beyond it), 0 from the cut-off radius on, and in between it does not increase with the distance. Without an origin the mask is symmetric under reflections along any axes.
* `Verif.C171_distances` (`Props/Masks.lean`): along an axis of `n` pixels the sub-pixels of the pixel `i` are the `ss` equal parts of the interval of length one around `i - (n - 1) / 2`; and for two axes and the norm of order two (the defaults) the distance is the Euclidean one.

### C172 Shape of masks and tapered volumes — partial

* `Verif.C172_mask_shape_violated` (`Props/Masks.lean`): The mask that `power_spectrum` and `compute_frc` multiply the image with is squeezed: for an image with one column the product is a square image; and without squeezing, a mask over one axis has one axis too many.
* `Verif.C172_mask_shape_partial` (`Props/Masks.lean`): For images with no axis of size one, or with such axes only in front, tapering keeps the shape; without squeezing, the mask over two or more axes, or with super-sampling, has the shape of the volume.

### C173 Balls — partial

* `Verif.C173_ball_violated` (`Props/Masks.lean`): With an even super-sampling the ball is not symmetric about its centre: in a row of three pixels with two sub-pixels each, a ball of radius 3/4 is `0, 1, 1/2`.
* `Verif.C173_ball_partial` (`Props/Masks.lean`): Without `func`, the values of `ball` are between 0 and 1; with an odd super-sampling (the default is 5), the ball is symmetric about the pixel `n // 2` under reflections along any axes, and its value at an offset `t` is the mean of the indicator of the radius (times `func`) over the `ss` parts of each pixel, at `t + (k - (ss - 1) / 2) / ss`.

### C174 Normalised cross-correlation of images — partial

* `Verif.C174_cross_correlation_violated` (`Props/Spectra.lean`): For a stack of images: the auto-correlation at no displacement is not 1 (it is divided by the length of the whole stack), and the images of the result are not in the order of the input (the `ifftshift` acts on the axis of the stack too): with two images of one pixel, 1 and 2, the result is 4/5, then 1/5.
* `Verif.C174_cross_correlation_partial` (`Props/Spectra.lean`): For two images of the same shape, neither of them zero: the result at `[i, j]` is their correlation at the displacement with the signed frequencies `i` and `j` of the size of the result (so no displacement is at `[0, 0]`), over the product of their lengths; it is between -1 and 1; the auto-correlation is 1 at `[0, 0]`. With the full or with the same size.

### C175 Template matching — proved

* `Verif.C175_template_matching` (`Props/Spectra.lean`): Template matching of two images of the same shape: wherever it is defined (the first image is not constant, nor is the second one in the window) the result is between -1 and 1, and at no displacement it is the correlation coefficient of the two images; so it is 1 for an image with itself.

### C176 Power spectrum — partial

* `Verif.C176_power_spectrum_violated` (`Props/PowerSpectrum.lean`): The power spectrum is not always defined: with smoothing over seven rings, that of every signal of four samples is NaN at the position 1, as the average takes in a ring without frequencies.
* `Verif.C176_power_spectrum_partial` (`Props/PowerSpectrum.lean`): For any image of any number of axes, taper, exponent: `power_spectrum` without smoothing is defined at each of its positions, and is there between any bounds of the moduli (to the exponent) of the transform at the frequencies less than one from the ring, over the value of the flat spectrum; with smoothing or not, it does not get negative, scales with the absolute value of the image's factor to the exponent, and without taper does not change if the image is displaced circularly. Without smoothing and taper and with the exponent 2, weighted by the sizes of the rings it sums to the energy of the image.

### C177 Threshold curve of the Fourier ring correlation — proved

* `Verif.C177_frc_threshold` (`Props/PowerSpectrum.lean`): The theoretical threshold curve of `compute_frc` for signals, images and volumes and any positive signal-to-noise ratio: it is 1 at the centre, does not increase along the frequencies (and decreases strictly for images and volumes), stays above `snrt / (1 + snrt)` and does not exceed 1; a larger ratio gives a higher curve. The ring sizes it uses are the two ends of a segment, and the perimeter and surface of circle and sphere.

### C178 Estimated resolution — partial

* `Verif.C178_resolution_violated` (`Props/PowerSpectrum.lean`): For stacks of images, with the threshold curves that `compute_frc(..., theo_threshold=False)` returns for them, `estimate_resolution` finds no resolution: it either raises an error or returns `None`, even though the curve crosses the thresholds.
* `Verif.C178_resolution_partial` (`Props/PowerSpectrum.lean`): With one threshold curve (as `compute_frc` returns by default), `estimate_resolution` returns the first crossing of the curves at or after the first frequency: a point of both curves between two sampled frequencies, and `None` exactly if they do not cross there. If the correlation is not below the threshold at the first frequency, then it is not below it at any sampled frequency up to the one before the returned resolution, and is below it at the next.

### C179 Removal of stripes keeps the shape, is linear and damps what is constant along the angles — partial

* `Verif.C179_gains` (`Props/Destripe.lean`): The filter along the angles keeps each oscillation along them as it is but for a factor, that does not depend on its phase: 0 for what is constant, below 1 for all, and larger for faster oscillations.
* `Verif.C179_padding` (`Props/Destripe.lean`): The data is padded, at both sides but for one pixel equally, to the smallest sizes that are multiples of `2 ** level`, as the wavelet transform needs them.
* `Verif.C179_destripe_violated` (`Props/Destripe.lean`): Two things that `destripe_wlf_vwu` should do and does not: the wavelet transform leaves out the axis of the angles (it does not, for any data), and the angles may be along any axis (with two axes, if they are along the last one the call fails, whatever the transform, for square data of more than two pixels; and with three axes, if they are along the first one of a cube).
* `Verif.C179_destripe_partial` (`Props/Destripe.lean`): For data of any shape, wavelet transform that meets the specification, level and angles along the last but one axis (the default): `destripe_wlf_vwu` returns data of the same shape, is linear, leaves of data that is the same for all angles (stripes) only the approximation bands, changes no data whose details vanish, and of data whose details are an oscillation of `f` periods along the angles scales the details by `1 - exp(-(f / angles)² / (2 sigma²))`.

### C180 Denoising converges to the solution of the denoising problem — partial

* `Verif.C180_psf_steps` (`Props/Denoise.lean`): With a PSF of odd sizes - of either sign - that is not zero, the step sizes of the solver are the same in all pixels: 0.95 over the sum of the absolute values of the PSF for the dual, and for the image the same with the contribution of the regularizer added to the sum.
* `Verif.C180_single_weight_partial` (`Props/Denoise.lean`): With one weight, the result is the image PDHG returns for the regularizer of that weight, started at the image.
* `Verif.C180_denoise_limit_partial` (`Props/Denoise.lean`): `denoise_image` without PSF and lower limit, for one weight: if the images returned after `N` iterations converge as `N` grows, then the limit solves the denoising problem with *changed* pixel weights: `1 / (1 / w + 1 / 0.95)` instead of `w`. (The transpose of the identity returns its argument, so the solver overwrites the dual of the data; C71.)
* `Verif.C180_denoise_weight_partial` (`Props/Denoise.lean`): the limit solves the documented problem for a penalty 39/19 (about 2.05) times the requested one.
* `Verif.C180_denoise_violated` (`Props/Denoise.lean`): for a pixel of value 1 and an l1 penalty of weight 1/4 the denoised images converge to 37/76, but the denoising problem is solved by 3/4 only.

### C181 Denoising with several weights picks one in their range — partial

* `Verif.C181_several_weights_partial` (`Props/DenoiseCv.lean`): With several increasing positive weights: if a result is returned, then there were at least three weights, the returned weight is within their range, the image is the one returned for that weight alone, and the image respects the lower limit. (The weight is that of a parabola fit, C38.)
* `Verif.C181_chosen_weight_partial` (`Props/DenoiseCv.lean`): With at least three increasing positive weights, three test masks, scored cross-validation runs and a solver that runs for every weight, `denoise_image` returns an image and the weight that the logarithmic fit (C38) finds for the mean test losses.
* `Verif.C181_two_weights_violated` (`Props/DenoiseCv.lean`): with two weights `denoise_image` fails, whatever the image, the options and the weights.

### C182 Denoising cross-validation does not look at the held-out pixels — partial

* `Verif.C182_held_out_partial` (`Props/DenoiseCv.lean`): the reconstructions of the cross-validation depend on held-out pixels only through the start image: if two images agree at the training pixels and their median-filtered images agree at the test pixels, the reconstructions are the same.
* `Verif.C182_held_out_violated` (`Props/DenoiseCv.lean`): the start image of the cross-validation runs is median filtered including the held-out pixels. Two 11×11 images which differ at the (only) test pixel give different reconstructions.

### C183 Every voxel of the phase phantom is made of one material — partial

* `Verif.C183_phases_violated` (`Props/Testing.lean`): at a grey value of exactly one half, the voxel belongs to no phase.
* `Verif.C183_phases_partial` (`Props/Testing.lean`): In every voxel whose grey value is not exactly 0.1, 0.25 or 0.5, the phantom is made of exactly the material of that grey value: it attenuates as that material at the incoming and at the outgoing energy, and it produces the fluorescence of the element's mass fraction in that material. What is missing: at the three values the voxel is empty — it neither attenuates nor fluoresces. In all voxels no two phases overlap.

### C184 Every requested element and detector has its volumes — partial

* `Verif.C184_multi_violated` (`Props/Testing.lean`): for a detector in the direction of the beam (position 0) the last volumes are left empty.
* `Verif.C184_multi_partial` (`Props/Testing.lean`): If every element has an emission line, the result has one volume of production and one of attenuation for each element, which are those of `phantom_assign_concentration` for that element and line; the attenuation at the incoming energy is the same as there; and for a detector position other than 0 one more pair: the Compton production and the attenuation at the Compton energy, at that position. Otherwise (a list of lines shorter than the list of elements) the call fails. What is missing: detector position 0, for which the last pair of volumes is empty.

### C185 Noise never changes the clean image or the reported background — proved

* `Verif.C185_add_noise` (`Props/TestingNoise.lean`): Whenever `add_noise` succeeds, its clean image is the input times the number of photons and the efficiency, whatever noise is asked for; and the call fails exactly if one of the standard deviations in use is negative (the default one for the background is 5% of its average), or Poisson noise is asked for and a pixel is negative.
* `Verif.C185_noise` (`Props/TestingNoise.lean`): Without any noise the noisy image is the clean one and the background is 0. Without Poisson and read-out noise, the mean of the difference between the noisy and the clean image is the background returned, no pixel is below its clean value, and the background is not negative (for a non-negative number of photons and efficiency); the background returned is the same with Poisson and read-out noise. With Poisson noise alone the readings are natural numbers.

### C186 A synthetic sinogram is the projection of the returned phantom — partial

* `Verif.C186_sino_violated` (`Props/TestingNoise.lean`): without attenuation volumes the point spread function is dropped.
* `Verif.C186_sino_partial` (`Props/TestingNoise.lean`): With attenuation volumes, or without a point spread function: the noise-free sinogram of `create_sino` is the forward projection of the expected production returned with it, the background is 0, and the expected production is the phantom times the number of photons and the solid angle of the detector, 0.0375² sr. With a point spread function but no attenuation volume, the sinogram is the projection without that function (what is missing).
* `Verif.C186_angles` (`Props/TestingNoise.lean`): The angles of the synthetic scans: as many as asked for, starting with the first one, equally spaced by the range divided by their number, never reaching the end of the range, and all distinct if the range is not empty.

### C187 A transmission sinogram linearises to the projection of the phantom — proved

* `Verif.C187_transmission` (`Props/TestingNoise.lean`): Without noise, minus the logarithm of the sinogram of `create_sino_transmission` divided by its flat field is the forward projection of the phantom — blurred by the point spread function, if one is given —, for every positive number of photons; the flat field is that number, and the phantom is returned unchanged. With noise the flat field and the sinogram have independent draws: the flat field does not depend on the phantom.

### C188 The error power is a distance — proved

* `Verif.C188_error_power` (`Props/TestingNoise.lean`): The error power of `compute_error_power` is a distance between volumes: zero exactly for equal ones, symmetric, and satisfying the triangle inequality; the signal power is the distance to the empty volume, so that it does not depend on the computed volume; both scale with the volumes; the error power is at most the largest error of a voxel.

### C189 Durations are shown rounded down to milliseconds — proved

* `Verif.C189_parts` (`Props/TuningHelpers.lean`): For every duration, the hours, minutes, seconds and milliseconds shown are the largest ones not above it: they are in their ranges, and they add up to the duration rounded down to a millisecond.
* `Verif.C189_format` (`Props/TuningHelpers.lean`): Two durations are shown by the same string if and only if they are equal when rounded down to milliseconds.

### C190 Performance meters add up — proved

* `Verif.C190_sums` (`Props/TuningHelpers.lean`): Batches add up: associatively, with the empty batch as neutral element, and appending a task is adding the batch of that task alone; after appending any list of tasks to the empty batch the processing and total times are the sum of the times of the tasks.
* `Verif.C190_serial` (`Props/TuningHelpers.lean`): For every monotone clock and every number of tasks: each task's time is the sum of its initialization and execution, none of them negative; the batch's total time is the sum of its initialization and processing times; the tasks' times add up to no more than the processing time, so that the ratio of task time to processing time shown for a serial batch is between 0 and 1.
* `Verif.C190_parallel` (`Props/TuningHelpers.lean`): If the tasks run between the start and the end of the processing, on a number of workers such that each of them runs one task at a time, the ratio shown is at most the number of workers. `worker` says which worker ran each task; the readings of the tasks of one worker are in the order of their execution.

### C191 Additional keyword arguments reach the task functions — partial

* `Verif.C191_init_keywords_violated` (`Props/TuningHelpers.lean`): no function accepted as task initialization function can take any additional keyword argument.
* `Verif.C191_keywords_partial` (`Props/TuningHelpers.lean`): Without additional keyword arguments, the calls go through for every initialization function of one positional parameter; an execution function of one positional parameter and keyword parameters takes exactly the keyword arguments among their names (all of them if it has a `**` parameter). What is missing: keyword arguments of the initialization function, which always fail.

### C192 Reconstruction errors and L-curve losses are those of each hyper-parameter — partial

* `Verif.C192_errors_violated` (`Props/TuningHelpers.lean`): with `plot_result` the call raises.
* `Verif.C192_errors_partial` (`Props/TuningHelpers.lean`): Without plotting: for every number of threads or executor and every order of completion, the errors are, in the order of the hyper-parameter values, the sum of the absolute differences and the sum of the squared differences of each reconstruction to the truth — zero exactly where they are equal; and the loss values of the L-curve are those of the reconstructions in the same order, which are returned with them. What is missing: `plot_result=True`, with which the errors are never returned.

### C193 A failing batch does not affect later ones — partial

* `Verif.C193_executor_violated` (`Props/TuningHelpers.lean`): one failing task shuts the caller's executor down.
* `Verif.C193_executor_partial` (`Props/TuningHelpers.lean`): The executor stays usable exactly as long as no batch fails: any sequence of successful batches leaves it alive, and a batch on an executor that is alive gives the same results as a serial evaluation. What is missing: after a failing batch every non-empty batch on that executor fails.

### C194 Residual of the l2-ball term — partial

* `Verif.C194_step_size_violated` (`Props/L2bResidual.lean`): the residual of the l2-ball term with local error 4 (tolerance 2), data 0 and a projection of 3 is 1 in SIRT (step size 1) and 0 in PDHG with a step size 2.
* `Verif.C194_residual_partial` (`Props/L2bResidual.lean`): for every step size the residual of a pixel is zero exactly if the data differ from the projection by at most the step size times the square root of the local error, otherwise it is the difference moved towards zero by that amount. Missing: the factor of the step size should not be there; with step size one (SIRT, SART, FISTA) it is not.

### C195 Detector weights of the XRF projector — partial

* `Verif.C195_single_detector_violated` (`Props/XrfInit.lean`): one detector with two weights is accepted; the forward projection silently uses the first of them, and the back-projection cannot take the sinogram.
* `Verif.C195_weights_partial` (`Props/XrfInit.lean`): arguments with a meaning are accepted, and the forward projection multiplies the line of each detector with the weight that is meant, and the back-projection takes its result; with several detectors, and at least one weight, the other arguments are rejected. Missing: several weights with one detector, and empty lists.
* `Verif.C195_maps` (`Props/XrfInit.lean`): Attenuation maps with the axes (angles, detectors, rows, columns) are accepted exactly if they have one map per detector and the maps have the rows and columns of the volume, whatever the number of slices of the volume.

### C196 Resolution of masks — partial

* `Verif.C196_half_width_partial` (`Props/GhostMasks.lean`): For a mask that is not constant, the entry is the half width at half maximum of the radial profile of the auto-correlation of the mask minus its mean, or 0 if the profile does not fall below one half within the size of the mask. Missing: masks without such a half width should not be reported as the sharpest.
* `Verif.C196_no_width_violated` (`Props/GhostMasks.lean`): Not every entry is a half width: a mask without structure, and any mask with a single row, whose auto-correlation has no profile, are reported with the width 0; so a collection with such a mask has the smallest width 0.
* `Verif.C196_contrast` (`Props/GhostMasks.lean`): **C196, the width does not depend on the brightness and contrast of the mask**: with another transmittance and background (factor `a`, which may be negative, and offset `b`) it is the same.
* `Verif.C196_mean_and_min` (`Props/GhostMasks.lean`): the results are the mean and the minimum of the widths of the masks.

### C197 Pencil beam scans — proved

* `Verif.C197_pencil_beam` (`Props/GhostOps.lean`): A scan with a pencil beam: each bucket is the share `t` of the pixel of its shift, plus the share `1 - t` of the sum of the image (nothing for the default `t = 1`), for any list of shifts inside the field of view. The back-projection of the buckets of a full scan, with `t = 1`, is the image.

### C198 Shapes of mask collections — partial

* `Verif.C198_accepts` (`Props/GhostOps.lean`): Arrays are accepted exactly if the masks are stacked along one or more axes and there are no decoding masks, or decoding masks of the same shape; then the field of view and the axes of the stack are the parts of the shape, and the number of buckets times the number of pixels is the number of values.
* `Verif.C198_binned_support_violated` (`Props/GhostOps.lean`): The support of the masks is not kept consistent: after binning it is still that of the masks before.
* `Verif.C198_binned_partial` (`Props/GhostOps.lean`): the stack keeps its axes and the field of view is divided; the support is the old one.

### C199 Ghost projectors as linear operators — partial

* `Verif.C199_operator_shapes_violated` (`Props/GhostOps.lean`): As a linear operator, the projector of masks with one axis does not take vectors of the size of an image; the ghost tomography projector does not take vectors of the size of the volume.
* `Verif.C199_operator_shapes_partial` (`Props/GhostOps.lean`): For masks with two axes, a vector of the size of the image takes the shape of the image, no other vector is taken, and there is one bucket for each mask. Missing: masks with another number of axes, ghost tomography.

### C200 Absolute ghost projector — proved

* `Verif.C200_absolute` (`Props/GhostOps.lean`): The absolute projector is the projector with the absolute value of each coefficient: its answers to unit images and unit buckets are the absolute values of the answers of the projector; it bounds the projector; it is the projector itself for non-negative masks; and with one kind of masks its back-projection is the adjoint of its projection.

### C201 Direct reconstruction of ghost tomography — partial

* `Verif.C201_ghost_fbp_violated` (`Props/GhostOps.lean`): On the Python versions 3.10 and 3.11, which the package supports, the reconstruction always fails; with a single angle it fails on all versions, as the buckets of the only angle are taken for angles.
* `Verif.C201_ghost_fbp_partial` (`Props/GhostOps.lean`): On later versions and with masks that distinguish all the images, the direct reconstruction of the buckets of a volume is the filtered back-projection of the projections of that volume. Missing: the versions and the single angle above.

### C202 Random masks — partial

* `Verif.C202_half_gaussian_violated` (`Props/GhostOps.lean`): The values of half-Gaussian masks are not between the transmission of the closed mask and one.
* `Verif.C202_random_masks_partial` (`Props/GhostOps.lean`): Bernoulli masks have the values one (open) and `1 - t` (closed); half-Gaussian masks are at least `1 - t`, and at most one exactly where the number that was drawn is at most one in absolute value.
* `Verif.C202_number_partial` (`Props/GhostOps.lean`): as the random masks allow for more shifts than pixels (ratio at least one), every fraction up to one gives the fraction of the pixels, rounded up, for sequential and random shifts.

### C203 Cone-beam calibration: the tilt of the detector — partial

* `Verif.C203_tilt_found_partial` (`Props/ConeSetup.lean`): The angle computed from the projections of the centres of two circles, the first one below the second, is the tilt of the detector, up to the rounding to four decimals; so tilts of up to 119 degrees are found, and the wrong order of the circles is noticed for tilts of up to 59 degrees.
* `Verif.C203_tilt_removed_partial` (`Props/ConeSetup.lean`): If the tilt found is the tilt of the detector and more than a tenth of a degree, the corrected points are those that a detector without the tilt would have seen, and the whole calibration is exact: together with `C89`, the stored geometry is that of the acquisition.
* `Verif.C203_rounded_centres_partial` (`Props/ConeSetup.lean`): With the centres rounded to hundredths of a pixel, as those that are fitted, the angle is off by at most the angle under which the rounding is seen.
* `Verif.C203_small_tilt_violated` (`Props/ConeSetup.lean`): It is false that the rotation axis is vertical in the points that are fitted: tilts of less than a tenth of a degree are left in them (but still stored in the geometry).

### C204 Cone-beam calibration: repeated fits — partial

* `Verif.C204_origin_partial` (`Props/ConeSetup.lean`): With the exact projections of the two centres, the first successful fit finds the projection of the origin (the point of the rotation axis at the height of the source).
* `Verif.C204_returned_geometry_violated` (`Props/ConeSetup.lean`): It is false that the geometry returned by a fit stays what it was when the object is used for another fit: all the calls return the same object, and the later one overwrites it.
* `Verif.C204_last_fit_partial` (`Props/ConeSetup.lean`): The values are those of the last successful fit, whatever was fitted before: except for the origin, which is that of the first one.
* `Verif.C204_stale_origin_violated` (`Props/ConeSetup.lean`): It is false that after a successful fit with the right side of the source the origin is the projection of the origin: a successful fit before it, with the wrong side, leaves its own.

### C205 Cone-beam geometry: changes of one parameter — partial

* `Verif.C205_update_partial` (`Props/ConeStorage.lean`): `update` changes the named parameter only, to the value that is asked for: exactly without decimals, else up to half a unit of the last one. The tuning geometries are those for each of the values, in the same order.
* `Verif.C205_distinct_violated` (`Props/ConeStorage.lean`): It is false that different values give different tuning geometries: the values are rounded to three decimals, so steps of less than half a thousandth (of a degree, for the angles) are not tested at all.

### C206 Cone-beam geometry: JSON — partial

* `Verif.C206_round_trip` (`Props/ConeStorage.lean`): Whatever the object held before, loading what was written restores all the parameters.
* `Verif.C206_refusals` (`Props/ConeStorage.lean`): Geometries of plain numbers can be written; text of another class or of several objects is refused, without changes.
* `Verif.C206_write_after_update_violated` (`Props/ConeStorage.lean`): It is false that a geometry that can be written still can after `update`: integers become NumPy integers.
* `Verif.C206_atomic_load_violated` (`Props/ConeStorage.lean`): It is false that a failed load leaves the object as it was: with a missing entry, those before it are already changed.

### C207 Cone-beam geometry: the volume — proved

* `Verif.C207_volume_extent` (`Props/ConeStorage.lean`): The volume covers the field of view of the detector, whatever the up-sampling.

### C208 Cone-beam geometry: tuning — partial

* `Verif.C208_tuning_partial` (`Props/ConeStorage.lean`): With at least three increasing values for each parameter (each one given once), the tuning does not fail, keeps the other parameters, and changes each of the given ones to a value within those tested, up to the rounding to three decimals.
* `Verif.C208_residual_violated` (`Props/ConeStorage.lean`): It is false that the tuning does not make the residual larger: the minimum of the parabola is not checked.

### C209 Update masks of regularizers — proved

* `Verif.C209_no_effect` (`Props/UpdateMask.lean`): PDHG gives the same volume, residuals and number of iterations with and without the regularizers that have no effect, for every operator, data and arguments.
* `Verif.C209_mask_pixels` (`Props/UpdateMask.lean`): Pixels outside of the update mask are not moved by the regularizer, and their step sizes are not reduced; those in the mask are moved as without the mask.
* `Verif.C209_empty_mask` (`Props/UpdateMask.lean`): With an empty update mask, PDHG gives what it gives without the regularizer.

### C210 A weight of zero is no regularization — partial

* `Verif.C210_positive_weights_partial` (`Props/UpdateMask.lean`): With positive weights the values of the duals are always numbers.
* `Verif.C210_smooth_zero_partial` (`Props/UpdateMask.lean`): Smooth regularizers of the gradient (with any norm that is not of the l1 family, such as the default l2 norm) with weight zero do not change the results of PDHG.
* `Verif.C210_zero_weight_violated` (`Props/UpdateMask.lean`): It is false that a weight of zero means no regularization: for the total variation (l1 or l12 norm) the first update of the dual, from the default start volume, is `0 / 0`.
* `Verif.C210_fista_l1_zero_partial` (`Props/UpdateMask.lean`): The l1 regularizer with weight zero does not change the results of FISTA.

### C211 FBP filter objects — proved

* `Verif.C211_fbp_filter` (`Props/FilterObjs.lean`): The FBP filter is that of the data it is called with, whatever was filtered before (`o`, `o'` are any two states of the object); it is applied to every row by itself, and linear in the data.
* `Verif.C211_repeated_angles` (`Props/FilterObjs.lean`): Each angle measured `k` times: every one of the `k` filtered rows is the filtered row of the single measurement divided by `k`, so that their sum, and hence the back-projection, is unchanged.
* `Verif.C211_filter_names` (`Props/FilterObjs.lean`): The names: exactly those of the list are accepted, in lower, upper or mixed case, and only those.

### C212 Custom filters — partial

* `Verif.C212_kernels` (`Props/FilterObjs.lean`): Kernels assigned to `filter_real` are those with which the rows are convolved, one result for each kernel, in their order; and assigning what is read from `filter_fourier` to another object gives the same results.
* `Verif.C212_no_filter` (`Props/FilterObjs.lean`): Without a filter the constructor makes the one that leaves the rows as they are.
* `Verif.C212_constructor_partial` (`Props/FilterObjs.lean`): The filters given to the constructor are applied with the even parts of their kernels: so exactly those of even kernels, the real ones, are applied as they are.
* `Verif.C212_constructor_violated` (`Props/FilterObjs.lean`): A filter given to the constructor is the one that is applied.
* `Verif.C212_calls` (`Props/FilterObjs.lean`): Which data a custom filter can be used with: a call succeeds if and only if every filter has a single entry or one for each frequency of the padded rows; it does not change the object; and the `i`-th result is what the `i`-th filter gives alone.

### C213 Shifts of volumes and normalised correlations — partial

* `Verif.C213_subpixel` (`Props/AlignVertical.lean`): For all images: the shift that is found is, along each axis, the position of a largest correlation plus the vertex of the parabola through the correlations before, at and after it along that axis, to the number of decimals asked for.
* `Verif.C213_volume_shift_partial` (`Props/AlignVolumes.lean`): `fit_shifts_zyx_xc`: if the reference is the volume moved by whole voxels (around the borders), that displacement is found exactly, with and without normalisation, for all volumes without a period, with the full transform, and with the real one if the last axis has an even number of voxels.
* `Verif.C213_image_shift_partial` (`Props/AlignVolumes.lean`): `fit_shifts_vu_xc` with normalisation (`normalize_fourier`), or without: the same for images, of which the data is the other one moved by whole pixels.
* `Verif.C213_odd_size_violated` (`Props/AlignVolumes.lean`): With the default options, the displacement of volumes is found whatever the number of voxels along the axes: it is not for an odd number of voxels along the last axis. Here a displacement of -1 is taken for +1.

### C214 Re-centring on a reference volume — partial

* `Verif.C214_com_volume_moves` (`Props/AlignVolumes.lean`): The centre of mass of a volume moves with the object.
* `Verif.C214_methods_agree_partial` (`Props/AlignVolumes.lean`): Re-centring on a reference volume that shows the object displaced by whole voxels: the methods "com" and "xc" give the same shifts, those of the displacement, for an even number of voxels along the last axis and objects without a period.
* `Verif.C214_methods_agree_violated` (`Props/AlignVolumes.lean`): The same for all sizes: not for an odd number of voxels along the last axis.

### C215 Vertical alignment recovers whole-row moves, and nothing else in the data matters — partial

* `Verif.C215_vertical_shifts_partial` (`Props/AlignVertical.lean`): Vertical pre-alignment: if the intensity of the rows, summed over the columns, is that of an object on a constant background that is moved by `-s w` rows at angle `w` and never touches the first or the last row, the shifts are exactly `s w`, up to a common constant that makes their mean zero, and rounding - for every object with the derivative, for every one above the background without. With the real transform (the default) the number of rows must be odd with the derivative and even without; otherwise see `C215_even_rows_violated`.
* `Verif.C215_intensity` (`Props/AlignVertical.lean`): Changes of the intensity of whole projections do not change the shifts: neither a positive factor nor an offset per angle. Data of one row are refused.
* `Verif.C215_masks` (`Props/AlignVertical.lean`): Masked pixels have no effect on the shifts; a mask that keeps all pixels has none either.
* `Verif.C215_even_rows_violated` (`Props/AlignVertical.lean`): With the default options (derivative and real transform) the shifts are wrong for an even number of rows: the inverse transform has one sample less than the profiles. Four rows, one bright row that moves by one.

### C216 The camera tilt is the inclination of the line of centres of rotation — partial

* `Verif.C216_centre_partial` (`Props/AlignImages.lean`): If the rows of the first image are those of the second, each moved by twice `a * x + b` at height `x` above the middle (so that the centres of rotation of the rows are on this line, which is inclined), then the centre of rotation that is found is `b`, whichever norm is used for the line. What is missing: the angle is half of the slope of the line (`C216_tilt_violated`), and a line that is not inclined is refused (`C216_no_tilt_violated`).
* `Verif.C216_tilt_violated` (`Props/AlignImages.lean`): The tilt (in radians) is the inclination of the line of the centres of rotation, with the opposite sign, up to terms of the third order of the slope (so that the slope, and the angle whose tangent it is, are both accepted). It is half of it.
* `Verif.C216_no_tilt_violated` (`Props/AlignImages.lean`): Images whose rows are all moved by the same whole number of pixels, twice the centre of rotation, are given this centre and no tilt: the call raises an exception instead, even for two images that are the same.
* `Verif.C216_no_tilt_refused` (`Props/AlignImages.lean`): … and no call on such images gives anything but the exception.

### C217 Marker tracking returns the pixel of the marker — partial

* `Verif.C217_moves_partial` (`Props/AlignImages.lean`): In an image that is the marker image moved (around the borders) by `sv` rows and `su` columns, the position that is found is the middle of the image of the marker, moved by as much: for an even number of columns.
* `Verif.C217_disk` (`Props/AlignImages.lean`): The disk created as a marker is at the pixel of index half the size of the image (rounded down), with the profile above, for an odd super-sampling and images large enough. It is the same on opposite sides of this pixel.
* `Verif.C217_position_partial` (`Props/AlignImages.lean`): In an image that shows the disk at a pixel, this pixel is the position that is found, for images with even numbers of rows and of columns.
* `Verif.C217_odd_rows_violated` (`Props/AlignImages.lean`): The pixel of the disk is found whatever the numbers of rows: for an odd number it is missed by half a pixel, even in the image of the marker itself.

### C218 Rotation and scale between images — partial

* `Verif.C218_shapes` (`Props/AlignImages.lean`): Images of different shapes are refused.
* `Verif.C218_rotation_scale_partial` (`Props/AlignImages.lean`): If the polar spectrum of the second image is that of the first turned by `-t` degrees (which half a turn leaves as it is) and with the logarithms of the radii lessened by `k` samples (around the ends), then the rotation is `t` degrees and the scale is the ratio of the radii of samples `k` apart: for an odd number of samples along the radius.
* `Verif.C218_even_radius_violated` (`Props/AlignImages.lean`): The rotation and the scale are found whatever the number of samples along the radius: not for an even number. Here a scale below 1 is taken for one above 1.

### C219 Set-up of an attenuation volume — partial

* `Verif.C219_detectors_partial` (`Props/Inits.lean`): An attenuation volume has a detector for each position, in their order, at the angles asked for (those given as `DetectorXRF` objects are kept), exactly if the positions are `DetectorXRF` objects or Python floats; a single position is a sequence of one. The shape is that of the volumes. What is missing: integers and 32-bit floats (`C219_positions_violated`).
* `Verif.C219_accepted` (`Props/Inits.lean`): The detectors of an accepted call, and its shape.
* `Verif.C219_angles` (`Props/Inits.lean`): The detector angles of an accepted call are those asked for, in their order.
* `Verif.C219_shapes_partial` (`Props/Inits.lean`): No volumes at all, volumes of the same number of dimensions and different shapes, and volumes of other than two or three dimensions are refused; everything else that agrees is accepted. What is missing: `C219_shapes_violated`.
* `Verif.C219_positions_violated` (`Props/Inits.lean`): A detector position is accepted as any kind of number: integers and 32-bit floats are refused.
* `Verif.C219_shapes_violated` (`Props/Inits.lean`): Volumes of different shapes are refused: a cube and a line of the same length are not.

### C220 Set-up of the alignment of detector shifts — partial

* `Verif.C220_sizes` (`Props/Inits.lean`): The number of detectors is the size of axis `d`, and data with another number of projections (axis `w`) than of angles are refused, for any naming of the axes. Limits that are given are kept.
* `Verif.C220_default_limits_partial` (`Props/Inits.lean`): With the axes in the order detector, row, angle, column, shifts are limited by default to half of the number of rows (if there are several) and half of the number of columns. What is missing: other orders of the axes (`C220_format_violated`).
* `Verif.C220_format_violated` (`Props/Inits.lean`): Whatever the order of the axes, the default limits are half of the numbers of rows and of columns: with the angles first, half of the number of angles is the limit of the vertical shifts.
* `Verif.C220_borders` (`Props/Inits.lean`): Borders take away their number of entries at both ends; a border of zero, a negative one or none take away nothing.

### C221 The transpose of the stationary wavelet transform is its adjoint — partial

* `Verif.C221_weighted_adjoint_partial` (`Props/StationaryWavelets.lean`): for orthogonal wavelets and padding with zeros the transpose applied to coefficients, against an image, is the sum over the bands of `1 / 2 ** (m * levels)` (1, if normalized) times the coefficients against the transform.
* `Verif.C221_adjoint_partial` (`Props/StationaryWavelets.lean`): the normalized transform of an orthogonal wavelet with padding with zeros. (Missing: the default padding "edge", transforms that are not normalized, and biorthogonal wavelets, where it fails.)
* `Verif.C221_energy_partial` (`Props/StationaryWavelets.lean`): C221, the energies of the bands add up to the energy of the image.
* `Verif.C221_unnormalised_violated` (`Props/StationaryWavelets.lean`): C221 fails for transforms that are not normalized (the default of the regularizer).
* `Verif.C221_edge_violated` (`Props/StationaryWavelets.lean`): C221 fails for the default padding of the transform ("edge").

### C222 The stationary wavelet transform is inverted by its transpose — proved

* `Verif.C222_round_trip` (`Props/StationaryWavelets.lean`): what the direct transform makes, the inverse brings back, for all filters that reconstruct, both normalisations, all paddings, numbers of levels, shapes and axes.
* `Verif.C222_orthogonal` (`Props/StationaryWavelets.lean`): orthogonal wavelets reconstruct.

### C223 PDHG with the stationary wavelet regularizer — partial

* `Verif.C223_stands_for_partial` (`Props/StationaryWavelets.lean`): the regularizer stands for the l1 norm of the bands with the weights `bandWeight`.
* `Verif.C223_converges_weighted_partial` (`Props/StationaryWavelets.lean`): C223, with all defaults but the weights of the bands: a primal-dual reconstruction with the stationary wavelet regularizer of an orthogonal wavelet converges to a solution of the problem in which the weight of a band is divided by `2 ** (m * levels)`, unless it is normalized.
* `Verif.C223_converges_partial` (`Props/StationaryWavelets.lean`): with `normalized=True` a primal-dual reconstruction converges to a minimiser of the data term plus the weight times the l1 norm of the wavelet coefficients, for orthogonal wavelets and padding with zeros. (Missing: `normalized=False`, the default, where it fails.)
* `Verif.C223_converges_limits_partial` (`Props/StationaryWavelets.lean`): nothing has to be assumed about solutions. (Missing: as in `C223_converges_partial`.)
* `Verif.C223_default_violated` (`Props/StationaryWavelets.lean`): C223 fails for the default `normalized=False`: for one pixel, the identity as operator, l2 data term, Haar wavelet with one level and all defaults, the problem has a solution, but the returned volumes do not converge to one.

### C224 Step sizes of the stationary wavelet regularizer — proved

* `Verif.C224_sigma_le_tau` (`Props/StationaryWavelets.lean`): the step sizes are positive, and no band's `sigma` exceeds `tau`.
* `Verif.C224_sigma_value` (`Props/StationaryWavelets.lean`): without normalization, the step of a band is the inverse of the product of the l1 norms of all the filters on the way from the image to the band: those of the approximations before it, and those of its label.
* `Verif.C224_step_contract` (`Props/StationaryWavelets.lean`): the step sizes the regularizer publishes satisfy the condition of the primal-dual algorithm, with the adjoint that the code uses.

### C225 The transpose of the decimated wavelet transform is its adjoint — partial

* `Verif.C225_zero_partial` (`Props/DecimatedWavelets.lean`): Mode "zero", for every shape: the transpose is the adjoint. What is missing: the other modes (except "periodization", next), for which it is not.
* `Verif.C225_periodization_partial` (`Props/DecimatedWavelets.lean`): Mode "periodization" with sizes divisible by `2 ** level`: the transpose is the adjoint.
* `Verif.C225_energy_partial` (`Props/DecimatedWavelets.lean`): In these cases the energy is kept.
* `Verif.C225_constant_violated` (`Props/DecimatedWavelets.lean`): With the default mode of the regularizer ("constant"), the transpose is not the adjoint.

### C226 The decimated wavelet transform can be inverted by its transpose — proved

* `Verif.C226_round_trip` (`Props/DecimatedWavelets.lean`): Whatever the mode, the shape, the axes and the number of levels: transforming back gives the image, for all reconstructing filter banks.
* `Verif.C226_orthogonal` (`Props/DecimatedWavelets.lean`): All orthogonal wavelets (whose filters have even length) are such filter banks.
* `Verif.C226_extension` (`Props/DecimatedWavelets.lean`): zeros, the border value, the mirror image with and without the border, the periodic continuation.
* `Verif.C226_haar_values` (`Props/DecimatedWavelets.lean`): C226, the coefficients of the Haar wavelet in every mode: scaled sums and differences of the pairs of neighbours.

### C227 The primal proximal of the decimated wavelet regularizer is a proximal — partial

* `Verif.C227_proximal_partial` (`Props/DecimatedWavelets.lean`): Mode "periodization", sizes divisible by `2 ** level`, orthogonal wavelets: what `apply_proximal_primal` returns minimises the sum of half the squared distance and of the penalty, and every other image is worse by at least half its squared distance from it. What is missing: the other modes, where it is not the proximal (below).
* `Verif.C227_default_violated` (`Props/DecimatedWavelets.lean`): With the default mode ("constant") `apply_proximal_primal` does not return the proximal: one pixel, Haar, one level.

### C228 The documented padding modes of the decimated wavelet transform are accepted — partial

* `Verif.C228_accepted_partial` (`Props/DecimatedWavelets.lean`): Which of the documented options are accepted. What is missing: the others, among them the default.
* `Verif.C228_default_violated` (`Props/DecimatedWavelets.lean`): The documented options, and the default, are not all accepted.

### C229 A primal-dual reconstruction with the decimated wavelet regularizer converges to the minimiser — partial

* `Verif.C229_levels_violated` (`Props/DwlCycle.lean`): for images of 32 by 32 pixels, the identity as operator, l2 data term, Haar wavelets, the default relaxation and mode "periodization", for which the transpose is the adjoint, the problem has a solution, but the returned volumes alternate between two images.
* `Verif.C229_stands_for_partial` (`Props/DwlReg.lean`): The regularizer stands for the penalty, if its steps keep the contract.
* `Verif.C229_converges_partial` (`Props/DwlReg.lean`): when the transpose is the adjoint and the steps keep their contract, a primal-dual reconstruction with the decimated wavelet regularizer converges to a minimiser of the data term plus the weight times the l1 norm of the wavelet coefficients. (Missing: the modes whose transpose is not the adjoint, and more levels, where it fails.)
* `Verif.C229_converges_limits_partial` (`Props/DwlReg.lean`): nothing has to be assumed about solutions. (Missing: as in `C229_converges_partial`.)

### C230 The scikit-image back-projection is the adjoint of the forward projection — partial

* `Verif.C230_right_angles_partial` (`Props/Skimage.lean`): at right angles the back-projection is the adjoint of the forward projection, if the number of pixels is odd or the angles are 0 or 90 degrees. (Missing: all other angles, and even numbers of pixels at 180 and 270 degrees, where it is not.)
* `Verif.C230_oblique_violated` (`Props/Skimage.lean`): C230 fails at 45 degrees, also for odd numbers of pixels.
* `Verif.C230_even_violated` (`Props/Skimage.lean`): C230 fails at 180 degrees for even numbers of pixels: the first row is never projected.

### C231 Every scikit-image projection has the total of the volume — partial

* `Verif.C231_right_angles_partial` (`Props/Skimage.lean`): at right angles, with an odd number of pixels, the total of the projection is that of the volume. (Missing: other angles and even numbers of pixels, where it is not.)
* `Verif.C231_oblique_violated` (`Props/Skimage.lean`): a volume of one voxel with the value 1, in the centre, is projected to a total of `7 - 4 * sqrt 2`, which is above 1.34.

### C232 The scikit-image backend takes every two-dimensional volume — partial

* `Verif.C232_square_partial` (`Props/Skimage.lean`): square volumes with voxels of size one are projected and back-projected. (Missing: rectangular volumes and other voxels, where the calls raise.)
* `Verif.C232_exactly_partial` (`Props/Skimage.lean`): with unit voxels both calls succeed for square volumes and for those with a single column, and for no others.
* `Verif.C232_shapes_violated` (`Props/Skimage.lean`): C232 fails for rectangular volumes, and for voxels of another size.

### C233 All angles at once or one by one is the same for scikit-image — partial

* `Verif.C233_float_partial` (`Props/Skimage.lean`): for floating-point volumes and projections, the projections of all the angles are those of the single angles, and the back-projection is the sum of the back-projections of the single angles. (Missing: integers, where they are not.)
* `Verif.C233_integer_violated` (`Props/Skimage.lean`): the projections of all the angles are truncated, and both are divided by the largest integer; and for projections of integers.

### C234 FISTA minimises the documented objective — partial

* `Verif.C234_unpreconditioned_partial` (`Props/FistaObjective.lean`): C234, partial, for regularizers with a voxel-wise proximal step `g`, without preconditioning, if the power method found the norm `L` of the matrix: after `k` iterations the documented objective, with the regularizer multiplied by `L`, exceeds that of any admissible volume by at most `2 L² dist² / (ω (k + 1)²)`. (Missing: `L = 1`, see the violation below.)
* `Verif.C234_unregularized_partial` (`Props/FistaObjective.lean`): without preconditioning, if the power method found the norm `L` of the matrix, the documented objective.
* `Verif.C234_documented_violated` (`Props/FistaObjective.lean`): C234 is violated, with preconditioning (the default) and without: one pixel and one value, the matrix 2, the data 4, the l1 norm with weight 1. After any positive number of iterations, for every random start, the result is 3/2 (the minimiser for the weight 2), whose documented objective exceeds that of 7/4 by 1/8.

### C235 FISTA with the wavelet regularizer converges to the minimiser — partial

* `Verif.C235_wavelet_partial` (`Props/FistaObjective.lean`): orthogonal wavelets, mode "periodization", sizes divisible by `2 ** level`, without preconditioning, limits and solution mask, if the power method found the norm `L` of the matrix: after `k` iterations half the squared residual plus `L · weight` times the l1 norm of the wavelet coefficients exceeds that of any volume by at most `2 L² dist² / (ω (k + 1)²)`. (Missing: preconditioning, see the violation below.)
* `Verif.C235_preconditioned_violated` (`Props/FistaObjective.lean`): C235 is violated with preconditioning, the default: two pixels, the matrix `diag(1, 2)`, the data 0 and 8, Haar, one level, weight 1. After any positive number of iterations the result is `(0, 4 - √2)`; the row-normalised misfit (C61) plus the penalty exceeds that of `(0, 4 - √2/2)` by 1/2. The proximal step uses the threshold of the first pixel for all coefficients.

### C236 Operators given by functions behave in the solvers as the matrix would — partial

* `Verif.C236_pdhg` (`Props/FuncOps.lean`): the functions of a matrix give, whatever the setting of preconditioning, exactly what the matrix gives without preconditioning.
* `Verif.C236_fista` (`Props/FuncOps.lean`): C236, FISTA.
* `Verif.C236_mlem` (`Props/FuncOps.lean`): C236, MLEM, which does not use absolute values.
* `Verif.C236_sirt_partial` (`Props/FuncOps.lean`): with entries that are not negative the functions give exactly what the matrix gives. (Missing: entries of both signs.)
* `Verif.C236_symmetric_partial` (`Props/FuncOps.lean`): C236, a symmetric matrix needs only one function: without the second one the solvers compute the same.
* `Verif.C236_sirt_violated` (`Props/FuncOps.lean`): one datum, two pixels, the row `(1, -1/2)`, given by functions, the data 1, any relaxation from 1 on (the default is 1.95). After `n` iterations the residual is `(3 ω - 1) ^ n`, at least `2 ^ n`: SIRT diverges; with the matrix it never increases the misfit (C59).

### C237 PDHG with total nuclear variation solves that problem — partial

* `Verif.C237_tnv_converges_partial` (`Props/TnvConv.lean`): PDHG with total nuclear variation with zero or periodic padding, for every matrix, volume shape, number of channels, weight, reference volume and correct singular value decomposition: the iterates converge to a solution of the problem "data term plus weight times the sum of the nuclear norms of the pixels' derivative matrices".
* `Verif.C237_tnv_converges_limits_partial` (`Props/TnvConv.lean`): C237, both limits given and a data term that is finite everywhere: a solution exists, so that no hypothesis about it is needed.
* `Verif.C237_default_tnv_violated` (`Props/TnvConv.lean`): C237 is violated with the default padding ("edge"): one channel of two pixels, the identity as operator, l2 data term and all defaults; the problem has a solution, but the returned volumes do not converge to one.

### C238 Projections returned by the ASTRA backends can be back-projected — partial

* `Verif.C238_two_dimensional_partial` (`Props/AstraShapes.lean`): what `fp` returns for all angles, or for one, can be given to `bp`, with both backends.
* `Verif.C238_three_dimensional_partial` (`Props/AstraShapes.lean`): exactly when what `fp` returns can be given to `bp`. All angles with the direct backend: always. All angles with the ASTRA backend: if the detector has at most one row, or if there is more than one angle and more than one column. One angle, with both backends: only if the detector has at most one row. In the other cases `bp` raises `IndexError`.
* `Verif.C238_violated` (`Props/AstraShapes.lean`): back-projecting a single projection of a 3D volume, as SART and the attenuation corrections do, raises `IndexError` with both backends; so does `bp` of what `fp` of the ASTRA backend returns for one angle.

### C239 Creating a projector does not change the geometry that is passed — partial

* `Verif.C239_geometry_unchanged_partial` (`Props/AstraShapes.lean`): the direct backend never changes the geometry it is given; the ASTRA backend does not if the geometry has a detector shape.
* `Verif.C239_stale_detector_partial` (`Props/AstraShapes.lean`): with the ASTRA backend and a geometry without detector shape, the detector of the first 3D volume stays in the geometry: a second projector created with the same geometry for another volume gets the detector of the first.
* `Verif.C239_violated` (`Props/AstraShapes.lean`): after a projector for a volume of 5 slices of 10×10 voxels, the same geometry used for a volume of 8 slices of 20×20 gives a projector that expects 5 × 10 pixels; with a fresh geometry it expects 8 × 20.

### C240 Back-projection refuses projections of another shape — partial

* `Verif.C240_accepted_shapes_partial` (`Props/AstraShapes.lean`): projections that `bp` takes have the right number of values, and along the columns and the rows (the last axis and the third from the end) they have the shape of the detector, if it is larger than one.
* `Verif.C240_three_axes_partial` (`Props/AstraShapes.lean`): C240 (3D volumes, all angles, at least two rows and columns): an array with three axes is only taken if it has the shape `(V, W, U)`.
* `Verif.C240_accepted_shapes_2d_partial` (`Props/AstraShapes.lean`): the same, for the number of values and the last axis.
* `Verif.C240_violated` (`Props/AstraShapes.lean`): a projector for a 2D volume and 36 angles takes a stack of two sinograms with 18 angles each; one for a detector with a single column takes the transposed sinogram, and one for a 3D volume takes an array with a fourth axis, angles split in two.

### C241 The index of a single projection selects one and the same angle — partial

* `Verif.C241_index_partial` (`Props/AstraShapes.lean`): for an index from zero, data and projector are those of that angle; indices from the number of angles on are refused by the ASTRA backend.
* `Verif.C241_negative_partial` (`Props/AstraShapes.lean`): what happens with negative indices, `-1 - j` for `j < nA`: the data are those of the angle counted from the end, but the projector is the one of the *next* angle, and the one of all angles for the index -1.
* `Verif.C241_violated` (`Props/AstraShapes.lean`): for the last angle given as `-1`, the ASTRA backend combines the data of the last angle with the projector of all angles, for `-2` the data of one angle with the projector of another.

### C242 Projections follow the given geometry for all voxel sizes — partial

* `Verif.C242_direct_partial` (`Props/AstraShapes.lean`): for every 3D geometry with one row per array, all angles and voxel sizes, the rays that reach the pixels are those of the geometry that was given.
* `Verif.C242_astra_partial` (`Props/AstraShapes.lean`): a point of the volume is projected where the geometry that was given would project the point *multiplied by the voxel size*; so the projections are those of the geometry if the voxel size is one.
* `Verif.C242_unit_voxels_partial` (`Props/AstraShapes.lean`): with voxels of the size of a pixel, both backends project along the geometry that was given.
* `Verif.C242_voxel_positions_partial` (`Props/AstraShapes.lean`): The position of a voxel: the volume is centred, and voxels have the size `vox` in units of pixels.
* `Verif.C242_violated` (`Props/AstraShapes.lean`): the default parallel geometry at the angle zero, and a volume of eight voxels of half a pixel in each direction, so that the detector has four columns, -2 … 2. The border of the volume, at 2 pixels from the axis, is projected on the border of the detector by the direct backend, but at one pixel from its centre by the ASTRA backend: the sample covers half of the detector.

### C243 A data term without data acts as such from the start — partial

* `Verif.C243_residual_partial` (`Props/FreshTerms.lean`): the residual of a new term is that of the term after `assign_data(None)`, for every class, background and mask.
* `Verif.C243_dual_step_partial` (`Props/FreshTerms.lean`): the dual step of a new term of the l1 family or of the KL term is that of the term after `assign_data(None)`.
* `Verif.C243_l2_partial` (`Props/FreshTerms.lean`): the dual steps of a new l2 or weighted l2 term leave the dual as it is, whereas after `assign_data(None)` it is divided by two (for weights: by `1 + 1 / w`, and zero where the weight is zero).
* `Verif.C243_violated` (`Props/FreshTerms.lean`): a new l2 term has another dual step than the one with no data.

### C244 Iterations can be split over several calls — partial

* `Verif.C244_sirt_partial` (`Props/Restart.lean`): `n + m` iterations give the volume of `m` iterations started from the result of `n` iterations, for every operator, data term, regularizers, masks, limits, and with or without tolerance.
* `Verif.C244_mlem_partial` (`Props/Restart.lean`): the same, for masks of the volume with values 0 and 1.
* `Verif.C244_sart_partial` (`Props/Restart.lean`): the same without tolerance, if both calls go through the projections in the same (random) order.
* `Verif.C244_fista_violated` (`Props/Restart.lean`): two iterations followed by one iteration give 7/8, three iterations give more.
* `Verif.C244_pdhg_violated` (`Props/Restart.lean`): one iteration followed by one iteration gives 11/36, two iterations give 7/18.

### C245 Solver objects can be used again — proved

* `Verif.C245_sirt` (`Props/Restart.lean`): a SIRT object that has been used returns the same volume and info (or raises the same exception) as a new one.
* `Verif.C245_mlem` (`Props/Restart.lean`): C245 for MLEM.
* `Verif.C245_pdhg` (`Props/Restart.lean`): C245 for PDHG (the random start of the power method being the same).
* `Verif.C245_fista` (`Props/Restart.lean`): C245 for FISTA (the random start of the power method being the same).

### C246 The XRF projector and the with statement — partial

* `Verif.XrfPool.C246_pool` (`Props/XrfLifecycle.lean`): for every history of blocks (nested or not) and projections, failed ones included: no work is given to a pool that was shut down, and at most one pool exists; it exists if and only if the projector is threaded and the last `with` statement was one that began.
* `Verif.XrfPool.C246_misuse_is_recorded` (`Props/XrfLifecycle.lean`): What `misused` in `C246_pool` means: a projection that gives work to a pool that was shut down is recorded, and nothing else is.
* `Verif.XrfPool.C246_projections` (`Props/XrfLifecycle.lean`): after any history, the forward-projection returns if and only if the projector is not threaded or the last `with` statement was one that began; the back-projection also if the projector is not symmetric.
* `Verif.XrfPool.C246_with_partial` (`Props/XrfLifecycle.lean`): with one block at a time, however often, projections inside a block return, and outside the blocks no pool is left.
* `Verif.XrfPool.C246_with_violated` (`Props/XrfLifecycle.lean`): a threaded projector cannot be used without a block (the other projectors can), and after the end of a nested block it cannot be used in the rest of the outer block.

### C247 Cross-validation needs the test mask — partial

* `Verif.C247_sirt_violated` (`Props/CrossValidation.lean`): if the task does not hand the test mask on, every cross-validation score is 0, the best possible.
* `Verif.C247_pdhg_violated` (`Props/CrossValidation.lean`): C247 is violated by PDHG.
* `Verif.C247_fista_violated` (`Props/CrossValidation.lean`): C247 is violated by FISTA.
* `Verif.C247_sart_violated` (`Props/CrossValidation.lean`): C247 is violated by SART, which has no test mask: all its scores are 0.
* `Verif.C247_fbp_partial` (`Props/CrossValidation.lean`): a result without iterations (that of FBP, src/corrct/solvers.py:443) is noticed.

### C248 Setting detector shifts — partial

* `Verif.C248_position_partial` (`Props/GeometrySetters.lean`): when the call returns, the new detector position of every angle is, whatever the old one was, its shift (plus the position of the rotation axis) along its U direction, plus in 3D the vertical shift (if given) along its V direction, plus its distance along Y; nothing else changes.
* `Verif.C248_accepted` (`Props/GeometrySetters.lean`): which calls return: the directions (U, and V if it is used) and the distances have one entry or one per shift, the distances given for several angles are one-dimensional, and the numbers of old and new positions are equal if both are larger than one.
* `Verif.C248_atomic_violated` (`Props/GeometrySetters.lean`): a call that raises can leave the detector at a wrong place. The default geometry with three directions (one per angle), a shift for one angle: it raises, and afterwards the detector is at the origin, although it was elsewhere.
* `Verif.C248_distances_violated` (`Props/GeometrySetters.lean`): a geometry with one detector position refuses two distances for one shift, although its check accepts them ("if detector positions are more than 1"), after it has moved the detector.

### C249 Setting source shifts — partial

* `Verif.C249_position_partial` (`Props/GeometrySetters.lean`): when the call returns, the horizontal position of the source of every angle is its U shift, the vertical one is in 3D its V shift if given (otherwise 0), and its Y coordinate is the old one; nothing else changes.
* `Verif.C249_accepted` (`Props/GeometrySetters.lean`): which calls return: there is one source, or one per shift.
* `Verif.C249_last_counts` (`Props/GeometrySetters.lean`): the default argument changes nothing, and of two calls that return (for the same number of angles) only the second counts.
* `Verif.C249_one_shift_violated` (`Props/GeometrySetters.lean`): a geometry with a source for each of two angles does not accept one shift for all of them (a geometry with one source does), and the failed call moves the source to the origin's Y coordinate.

### C250 MLEM converges to a maximum-likelihood volume — partial

* `Verif.C250_mlem_converges_partial` (`Props/MlemConv.lean`): the volumes returned by MLEM for more and more iterations converge, and the limit is a volume of maximal likelihood (among the non-negative ones that vanish where the start does), provided the expected counts stay above the division floor where counts were measured.
* `Verif.C250_mlem_rate_partial` (`Props/MlemConv.lean`): the rate, for every volume of maximal likelihood: after `n` iterations the likelihood misses the maximum at most by the divergence of that volume from the start, divided by `n`; and each iteration brings the volume closer to it (in that divergence).
* `Verif.C250_mlem_background_partial` (`Props/MlemConv.lean`): with a background of at least the division floor nothing else is needed.
* `Verif.C250_small_data_violated` (`Props/MlemConv.lean`): one pixel, one voxel, a datum of half the division floor (`np.finfo(np.float32).eps`, about 1.2e-7): the unique volume of maximal likelihood is the datum, but the volumes converge to zero.

### C251 SIRT converges to a constrained least-squares solution — proved

* `Verif.C251_solution_exists` (`Props/SirtConv.lean`): whatever the limits and the solution mask, if any volume is admissible, there is one of smallest (weighted) misfit.
* `Verif.C251_sirt_converges` (`Props/SirtConv.lean`): SIRT on a matrix (any signs) with the plain l2 term, without regularizers and tolerance, relaxation between 0 and 2 (both excluded), for any start volume, background, data masks, test masks, limits and solution mask that some volume respects: the volumes returned for more and more iterations converge, and the limit is an admissible volume of smallest row-normalised training misfit.
* `Verif.C251_relaxation_two_alternates` (`Props/SirtConv.lean`): the upper bound is sharp. With relaxation 2 (one pixel, one voxel, datum 1) the volumes alternate between 0 and 2 forever.

### C252 SART converges on consistent data — partial

* `Verif.C252_sart_monotone_partial` (`Props/SartConv.lean`): with even weights, from the first iteration on, every iteration of SART brings the volume at least as close (in the distance weighted by `c`) to every admissible volume that reproduces the data.
* `Verif.C252_sart_converges_partial` (`Props/SartConv.lean`): SART on projections with even weights (see `EvenWeights`), without tolerance, relaxation between 0 and 2 (both excluded), for any start volume, data mask, limits and solution mask, and any order of the projections in which all of them appear: if some admissible volume reproduces the (not masked) data, the volumes returned for more and more iterations converge to such a volume. Missing: without even weights this is false (`C252_uneven_violated`), and so it is with negative weights (`C252_signed_violated`).
* `Verif.C252_uneven_violated` (`Props/SartConv.lean`): the data (1, 2) of the weights (1, 2) and (2, 1) are those of the volume (1, 0) and of no other, but SART (relaxation 1) returns (2/3, 2/3) for every positive number of iterations.
* `Verif.C252_signed_violated` (`Props/SartConv.lean`): C252 is false with negative weights, which SART sums up with their signs: one projection of one pixel with the weights 1 and -9/10, datum 1 (the datum of the volume (1, 0)). The residual of the volume returned after `n` iterations is -(-18)^n: the volumes diverge.

### C253 The result of a run names the method that produced it — partial

* `Verif.C253_label_partial` (`Props/Labels.lean`): the result of SIRT, PDHG and FISTA (regularizers without array limits) carries a label that starts with the name of the solver and mentions the data term and every regularizer with its weight or limit. Missing: MLEM without background, see `C253_mlem_violated`; array limits, see C254.
* `Verif.C253_mlem_violated` (`Props/Labels.lean`): every run without background has the empty label, so that its results cannot be told from anything.
* `Verif.C253_mlem_background_partial` (`Props/Labels.lean`): named, with the background.
* `Verif.C253_fbp_label` (`Props/Labels.lean`): named, and a filter given by (any spelling of) its name or as an object is mentioned.

### C254 Limit constraints accept arrays — partial

* `Verif.C254_array_limit_violated` (`Props/Labels.lean`): with a limit constraint whose limit is an array, as its documentation offers, SIRT, PDHG and FISTA raise `TypeError` while composing the label of the run, for every operator, data and options.
* `Verif.C254_scalar_limits_partial` (`Props/Labels.lean`): with single-number limits (and all other regularizers) the label never makes a call fail: the call returns the volume that the iterations give, or their error.

### C255 Lines are selected by their names — partial

* `Verif.C255_line_by_name_violated` (`Props/Physics.lean`): The name of a line selects that line only: asking for the line `LB1` gives `LB10`, `LB15` and `LB17` too.
* `Verif.C255_LB1_violated` (`Props/Physics.lean`): The lines that `LB1` gives.
* `Verif.C255_line_by_name_partial` (`Props/Physics.lean`): For any table of distinct names, the name of a line selects that line only if and only if no other name of the table continues it (in the table of the code, all but `LB1`).

### C256 Axes of the data by their letters — proved

* `Verif.DataFormat.C256_axes_by_format` (`Props/DataFormats.lean`): The letters of the format name the axes, counted from the end; data with more axes than letters raise.
* `Verif.DataFormat.C256_default_volume` (`Props/DataFormats.lean`): The default volume is as wide as the data along U, less the padding (twice an integer, or the two values of a pair), in X and Y, as high as the data along V if the format names such an axis, refined by the super-sampling; it exists exactly if there is an axis U and the padding is an integer or a pair.

### C257 Geometry from the shape of the data — partial

* `Verif.DataFormat.C257_parallel_detector` (`Props/DataFormats.lean`): The detector of a parallel 3D geometry made from the data has the rows and columns of the data, that of a 2D geometry the columns, whatever the order of the axes; exactly the data without the axes needed are rejected.
* `Verif.DataFormat.C257_cone_detector` (`Props/DataFormats.lean`): The same for a cone-beam geometry, which needs both axes.
* `Verif.DataFormat.C257_default_shapes_agree` (`Props/DataFormats.lean`): A projector from the default volume (no padding, any super-sampling) and one from the geometry made from the data agree: the default projection shape is the detector shape with the angles in between.
* `Verif.DataFormat.C257_documented_type_violated` (`Props/DataFormats.lean`): With the type written as in the documentation (`"parallel3d"`), a geometry of three dimensions is returned whose name is none of the types known to the package, and whose detector has no rows axis although the data have one: only `"3d"` and `"2d"` work.
* `Verif.DataFormat.C257_types_partial` (`Props/DataFormats.lean`): see `C257_parallel_detector`: for the types `"3d"` and `"2d"` the number of dimensions is that of the type and the detector has that many axes less one.
* `Verif.DataFormat.C257_rotation_directions` (`Props/DataFormats.lean`): The two directions are opposite unit vectors along Z, whatever the letter case; every other name raises; a vector is taken as it is.

### C258 Sizes of the default volume — partial

* `Verif.DataFormat.C258_negative_volume_violated` (`Props/DataFormats.lean`): Padding by more than half the width of the data does not raise: the volume gets a negative size.
* `Verif.DataFormat.C258_sizes_partial` (`Props/DataFormats.lean`): for paddings whose sum does not exceed the width of the data no size is negative, and no voxel is lost or added: the width times the voxel size is the number of unpadded columns.

### C259 Wavelet basis of filters — partial

* `Verif.WaveletBasis.C259_symmetric_partial` (`Props/WaveletBasis.lean`): For every symmetric wavelet (filters of odd length, at most `2 s + 1`) and as long as the number of pixels exceeds `(2 s + 1) 3^(level - 1)`, the basis has one detail function per level and one approximation, and each of them is symmetric around the first pixel: `r[j] = r[n - j]`, so that its spectrum is real.
* `Verif.WaveletBasis.C259_zero_mean_partial` (`Props/WaveletBasis.lean`): Under the same conditions, if the high-pass filter has no mean, neither has any of the detail functions: they do not change the mean of the data.
* `Verif.WaveletBasis.C259_normalised` (`Props/WaveletBasis.lean`): Every function of the basis that is not zero has the (first) norm one.
* `Verif.WaveletBasis.C259_few_pixels_violated` (`Props/WaveletBasis.lean`): With few pixels the functions of the higher levels do not fit, and lose symmetry and zero mean (no error is raised).

### C260 The background is added as it was given — partial

* `Verif.C260_partial` (`Props/IntegerData.lean`): If every background value is an integer, or all the data ever assigned are floating point numbers, then after any history of assignments of data of any numeric types the data term is the one of exact arithmetic: the types have no influence. (Missing: fractional backgrounds with integer data, `C260_violated`.)
* `Verif.C260_what_happens` (`Props/IntegerData.lean`): What the residual is in the integer types: the fractional part of the background is dropped — and stays dropped for floating point data that are assigned afterwards.
* `Verif.C260_violated` (`Props/IntegerData.lean`): "The residual of the data is the data minus the projection and the background, whatever the types of the data, now or before" is false: with a background of one half and integer data equal to the projection plus nothing, the residual is zero instead of minus one half; and it stays so after the integer data were replaced by floating point data.

### C261 Integers are numbers for the solvers — partial

* `Verif.C261_partial` (`Props/IntegerData.lean`): With floating point data, whatever the types of the masks (and, for PDHG and FISTA, of the initial volume), the solvers give what exact arithmetic gives; so do SIRT, MLEM and the preconditioned FISTA with integer data, if the background is one of integers, there is no test mask, and the data mask is of no higher type than the data. (Missing: PDHG and un-preconditioned FISTA with integer data, fractional masks or test masks with integer data, integer initial volumes of SIRT and MLEM: `C261_violated`.)
* `Verif.C261_violated` (`Props/IntegerData.lean`): Numbers given as integers are refused where the same numbers given as floating point numbers are accepted. For all operators, data and arguments: * PDHG refuses every integer data set, if it is to do at least one iteration; * FISTA refuses every integer data set without preconditioner (or if the operator has no `absolute`); * SIRT, MLEM and FISTA refuse integer data with a data mask of floating point numbers; * the cross-validation of integer data with a test mask of floating point numbers — such as those made by `create_random_test_mask` by default — is refused by SIRT and MLEM, and so is that of unsigned data with any test mask of truth values; * SIRT and MLEM refuse every integer initial volume, if they are to do at least one iteration.
* `Verif.C261_pdhg_violated` (`Props/IntegerData.lean`): For every matrix that is not zero and every data set, PDHG (with the diagonal step sizes and the least squares term, without regularizer) returns a volume if the data are floating point numbers, and fails if the same numbers are integers.
* `Verif.C261_sart_violated` (`Props/IntegerData.lean`): SART refuses integer data with a data mask of floating point numbers, and every integer initial volume if it has anything to do.

### C262 The residual of SART for integer data — partial

* `Verif.C262_partial` (`Props/IntegerData.lean`): The residual of SART for data of a type is the one of exact arithmetic, if the data are floating point numbers, or if the projections are integers (not below unsigned data); with floating point data the whole call is the one of exact arithmetic, for every mask, tolerance and floating point initial volume. (Missing: fractional projections with integer data, projections below unsigned data, `C262_violated`.)
* `Verif.C262_violated` (`Props/IntegerData.lean`): "The residual is the norm of the projections minus the data, whatever the type of the data" is false for one angle, one pixel and the identity: the residual of integer data 0 for the volume 1/2 is 0 instead of 1/2 (so that every positive tolerance stops the iterations), and the residual of unsigned data for a volume that is too low by one is the largest number of the type instead of 1 (so that no useful tolerance stops them).

### C263 Denoising of integer images — partial

* `Verif.C263_partial` (`Props/IntegerData.lean`): The denoised floating point image is that of exact arithmetic. (Missing: integer images, `C263_violated`.)
* `Verif.C263_violated` (`Props/IntegerData.lean`): No integer image can be denoised: for every image, blur, weights of the pixels, regularizer and positive number of iterations the call fails, also where it gives an image for the same numbers in floating point (here: one pixel, no penalty).

### C264 Polynomial backgrounds from the margins — partial

* `Verif.C264_partial` (`Props/PreTypes.lean`): If the averages of the pixels of the margins are values of a polynomial of at most the requested order (positive and smaller than the number of these pixels), then the background is that polynomial at all pixels, whatever the data between the margins — for floating point data, or if the values of the polynomial are integers. Margins that overlap are refused, and if one margin is empty, the background is that of order zero. (Missing: integer data and a polynomial with fractional values, `C264_violated`.)
* `Verif.C264_order_zero` (`Props/PreTypes.lean`): C264 for order zero (or a margin of zero pixels on the left): pixels of the margins whose values over the rows have mean `c` give the background `c`.
* `Verif.C264_violated` (`Props/PreTypes.lean`): For integer data the same claim fails: margins of one pixel with the values 0 and 1, order one, three pixels. The straight line has the value 1/2 in the middle, the background is 0 there.

### C265 Pre-processing of integer images — partial

* `Verif.C265_partial` (`Props/PreTypes.lean`): Pre-processing of floating point images is that of exact arithmetic; integer projections that are shifted by whole pixels are as well. (Missing: SNIP backgrounds of integer images, and shifts of integer projections by fractions of a pixel: `C265_violated`.)
* `Verif.C265_violated` (`Props/PreTypes.lean`): The SNIP background refuses every integer image, of any size, for any window and number of iterations (even none); and a shift by half a pixel of the integer projection `0, 1, 2, …` does not give the averages of neighbours, but `1, 2, …` (it did not move).

### C266 SART with a tolerance — partial

* `Verif.C266_shapes_violated` (`Props/SartTolerance.lean`): with a tolerance, SART raises `ValueError` for every data set whose numbers of angles and of pixels differ and are both larger than one (for every operator, volume, masks and number of iterations), except where it already fails while computing the step sizes; it does so for no other shape, and for no shape without tolerance.
* `Verif.C266_exact_solution_violated` (`Props/SartTolerance.lean`): where the call is accepted, the residual that decides when to stop compares the projections with the transposed data. Of a volume that reproduces the data exactly it is, for as many angles as pixels, the distance of the data from their transpose; for one angle, the distances of all pixels from each other.
* `Verif.C266_symmetric_partial` (`Props/SartTolerance.lean`): the recorded residual is the distance from the data (whatever the mask) if there are as many angles as pixels and the projections and the data are unchanged when angles and pixels are exchanged; in particular for one angle and one pixel. (Missing: everything else, `C266_shapes_violated`, `C266_exact_solution_violated`.)

### C267 PDHG with vectorial total variation solves that problem — partial

* `Verif.C267_vtv_converges_partial` (`Props/VtvConv.lean`): PDHG with vectorial total variation with the exponents 1 and 2, no reference, and the attribute `pad_mode` set to zero or periodic padding, for every matrix, volume shape, number of channels, weight and convex data term: the iterates converge to a solution of the problem "data term plus weight times the sum of the norms of the pixels' derivatives". (Missing: the padding that the constructor sets, `C267_vtv_violated`; infinite exponents, `C144_vtv_infinite_violated`.)
* `Verif.C267_vtv_converges_limits_partial` (`Props/VtvConv.lean`): **C267 (partial)**, both limits given and a data term that is finite everywhere: a solution exists, so that no hypothesis about it is needed.
* `Verif.C267_vtv_violated` (`Props/VtvConv.lean`): With the padding that the constructor sets ("edge"), for every pair of exponents (the default included) and the same two-pixel image of one channel (where all point-wise norms are the absolute value of the one derivative): the problem has exactly the solution (1, 9), but PDHG returns 0 at the first pixel after any number of iterations, so that its volumes do not converge to it.

### C268 PDHG with normalized vectorial, nuclear and Huber wavelets solves those problems — proved

* `Verif.C268_vectorial` (`Props/WaveletMulti.lean`): the vectorial wavelet regularizer stands for its penalty.
* `Verif.C268_nuclear` (`Props/WaveletMulti.lean`): the nuclear wavelet regularizer stands for its penalty.
* `Verif.C268_huber` (`Props/WaveletMulti.lean`): the Huber wavelet regularizer stands for its penalty.
* `Verif.C268_converges_vectorial` (`Props/WaveletMulti.lean`): PDHG with the vectorial wavelet regularizer with the exponents 1 and 2, normalized transform, orthogonal wavelet and padding with zeros: the iterates converge to a minimiser of the data term plus the penalty.
* `Verif.C268_converges_vectorial_limits` (`Props/WaveletMulti.lean`): PDHG with the vectorial wavelet regularizer with the exponents 1 and 2, normalized transform, orthogonal wavelet and padding with zeros: the iterates converge to a minimiser of the data term plus the penalty. With both limits given and a data term that is finite everywhere nothing has to be assumed about solutions.
* `Verif.C268_converges_nuclear` (`Props/WaveletMulti.lean`): PDHG with the nuclear wavelet regularizer, for every correct singular value decomposition and with or without reference, normalized transform, orthogonal wavelet and padding with zeros: the iterates converge to a minimiser of the data term plus the penalty.
* `Verif.C268_converges_nuclear_limits` (`Props/WaveletMulti.lean`): PDHG with the nuclear wavelet regularizer, for every correct singular value decomposition and with or without reference, normalized transform, orthogonal wavelet and padding with zeros: the iterates converge to a minimiser of the data term plus the penalty. With both limits given and a data term that is finite everywhere nothing has to be assumed about solutions.
* `Verif.C268_converges_huber` (`Props/WaveletMulti.lean`): PDHG with the Huber wavelet regularizer, normalized transform, orthogonal wavelet and padding with zeros: the iterates converge to a minimiser of the data term plus the penalty.
* `Verif.C268_converges_huber_limits` (`Props/WaveletMulti.lean`): PDHG with the Huber wavelet regularizer, normalized transform, orthogonal wavelet and padding with zeros: the iterates converge to a minimiser of the data term plus the penalty. With both limits given and a data term that is finite everywhere nothing has to be assumed about solutions.

### C269 Exact data are inverted exactly — proved

* `Verif.C269_sirt` (`Props/ExactRecovery.lean`): C269 for SIRT (relaxation between 0 and 2, l2 data term with or without background, no regularizer, no tolerance), for any start volume, masks and limits: the volumes returned for more and more iterations converge to the volume whose data were given, if no other allowed volume has the same data.
* `Verif.C269_fista` (`Props/ExactRecovery.lean`): C269 for FISTA (default preconditioning, relaxation in (0, 1], no restart, l2 data term, no regularizer, no tolerance).
* `Verif.C269_pdhg` (`Props/ExactRecovery.lean`): C269 for PDHG (default preconditioning, relaxation in (0, 1), no tolerance, no regularizer, 0/1 training weights), with the data terms l2, weighted l2, Huber, l1 and (for positive data) Kullback-Leibler.
* `Verif.C269_sart` (`Props/ExactRecovery.lean`): C269 for SART (relaxation between 0 and 2, projections with even weights, every projection in the order of the sweep).
* `Verif.C269_mlem` (`Props/ExactRecovery.lean`): C269 for MLEM (non-negative matrix, start and data, a background of at least `eps` at every pixel; `MlemSetting`): among the volumes that can be reached from the start.

### C270 SIRT is stable against noise and the choice of the start — proved

* `Verif.C270_sirt_stable` (`Props/SirtStability.lean`): Two SIRT runs of `n` iterations on the same matrix with the same options (relaxation in [0, 2], l2 data term with any background, no regularizer, no tolerance; limits that some volume respects, masks), with data `b`, `b'` and start volumes that differ only where the solution mask is not zero: in the volume's weighted norm, the results differ at most by as much as the start volumes do plus `n` times the relaxation times the difference of the data in the row-normalised norm (in which masked and test pixels count nothing). In particular, noise is amplified at most proportionally to the number of iterations, and with the same data the distance never grows.

### C271 The order of the regularizers does not matter — proved

* `Verif.C271_pdhg` (`Props/RegOrder.lean`): C271 for PDHG, with any operator, data term, options and preconditioning: regularizers given in another order yield the same volume and the same info (or the same error).
* `Verif.C271_sirt` (`Props/RegOrder.lean`): C271 for SIRT.
* `Verif.C271_regs` (`Props/RegOrder.lean`): The hypothesis holds for every regularizer built on the base class (here: any transform, norm, weight and update mask).

### C272 A stack of slices is reconstructed slice by slice — proved

* `Verif.C272_matrix` (`Props/Slices.lean`): The operator of a stack is the block-diagonal matrix.
* `Verif.C272_sirt` (`Props/Slices.lean`): with one geometry for all slices (and the same masks), reconstructing the stack and taking slice `k` is reconstructing slice `k` alone: SIRT, with any data term, start, limits, and regularizers acting in the slices.
* `Verif.C272_pdhg` (`Props/Slices.lean`): C272 for PDHG (preconditioned; data terms acting pixel by pixel).
* `Verif.C272_fista` (`Props/Slices.lean`): C272 for FISTA (preconditioned).
* `Verif.C272_mlem` (`Props/Slices.lean`): C272 for MLEM.

### C273 The numbering of voxels and pixels does not matter — proved

* `Verif.C273_sart` (`Props/SartNumbering.lean`): numbering voxels, projections (also in the order they are gone through) and the pixels of each projection otherwise only renumbers the result.
* `Verif.C273_sirt_parts` (`Props/Slices.lean`): SIRT: if operator, regularizers and masks are those of the parts, then so is the returned volume.
* `Verif.C273_pdhg_parts` (`Props/Slices.lean`): PDHG with its preconditioner (or with an operator for which both runs use given step sizes): the same. The data term must act pixel by pixel.
* `Verif.C273_fista_parts` (`Props/Slices.lean`): FISTA with its preconditioner: the same.
* `Verif.C273_mlem_parts` (`Props/Slices.lean`): MLEM: the same.
* `Verif.C273_matrix` (`Props/Slices.lean`): For a matrix this is the matrix with rows and columns in another order.
* `Verif.C273_sirt` (`Props/Slices.lean`): numbering voxels and pixels otherwise (in the operator, the data, the start, the masks, the limits, the attributes of the data term and the regularizers) only renumbers the result of SIRT.
* `Verif.C273_pdhg` (`Props/Slices.lean`): C273 for PDHG (preconditioned; data terms acting pixel by pixel).
* `Verif.C273_fista` (`Props/Slices.lean`): C273 for FISTA (preconditioned).
* `Verif.C273_mlem` (`Props/Slices.lean`): C273 for MLEM.

### C274 Without limits and regularizers, reconstructions superpose — proved

* `Verif.C274_sirt` (`Props/Superposition.lean`): SIRT: the reconstruction of `α b₁ + β b₂` from the start `α x₁ + β x₂` is `α` times the first plus `β` times the second one.
* `Verif.C274_fista` (`Props/Superposition.lean`): FISTA, whatever its restart period and step sizes.
* `Verif.C274_pdhg` (`Props/Superposition.lean`): PDHG, whatever its step sizes.
* `Verif.C274_matrix` (`Props/Superposition.lean`): For every matrix other than 0, without masks, all runs finish, so that the three theorems say: the reconstruction of `α b₁ + β b₂` is `α` times that of `b₁` plus `β` times that of `b₂`, from the default start.

### C275 The unit of the data does not matter — partial

* `Verif.C275_sirt` (`Props/Units.lean`): SIRT: data, background, start and limits multiplied by `α ≥ 0` (with the regularizers in the new unit) multiply the result by `α`.
* `Verif.C275_fista` (`Props/Units.lean`): FISTA, with any step sizes.
* `Verif.C275_pdhg` (`Props/Units.lean`): PDHG for l2 and weighted l2 terms, with any step sizes.
* `Verif.C275_regs` (`Props/Units.lean`): Regularizers with an l1 or l12 norm (total variation, wavelets, l1, ...): in the new unit the weight is multiplied by `α`.
* `Verif.C275_l1` (`Props/Units.lean`): The l1 regularizer with its proximal operator (for FISTA).
* `Verif.C275_tv` (`Props/Units.lean`): Total variation: `Regularizer_TV` etc. with weight `α w` for weight `w` (default gradient, any axes, paddings and update masks).
* `Verif.C275_mlem_violated` (`Props/Units.lean`): MLEM violates it: projections below `np.finfo(np.float32).eps` are replaced by that number (src/corrct/solvers.py:795). One voxel seen by one pixel with the value 1 is reconstructed as 1; the same measurement in a unit in which it is `d < eps` is reconstructed as `d (d/eps)^(n-1)` after `n` iterations, which tends to 0.

### C276 Options given with their neutral value change nothing — proved

* `Verif.C276_sirt` (`Props/Neutral.lean`): SIRT.
* `Verif.C276_fista` (`Props/Neutral.lean`): FISTA.
* `Verif.C276_pdhg` (`Props/Neutral.lean`): PDHG.
* `Verif.C276_mlem` (`Props/Neutral.lean`): MLEM, whose default start is 1 in every voxel.
* `Verif.C276_sart` (`Props/Neutral.lean`): SART, with any order of the projections (it has no test mask).
* `Verif.C276_fbp` (`Props/Neutral.lean`): FBP.
* `Verif.C276_tolerance_sirt` (`Props/Neutral.lean`): SIRT: a tolerance `≤ 0` is the same as none.
* `Verif.C276_tolerance_fista` (`Props/Neutral.lean`): FISTA.
* `Verif.C276_tolerance_pdhg` (`Props/Neutral.lean`): PDHG.
* `Verif.C276_tolerance_mlem` (`Props/Neutral.lean`): MLEM.
* `Verif.C276_tolerance_sart` (`Props/Neutral.lean`): SART, provided the residual can be computed at all (with a tolerance, incompatible numbers of angles and pixels raise, C05).
* `Verif.C276_restart` (`Props/Neutral.lean`): FISTA: a restart period greater than the number of iterations is the same as none.

### C277 SART superposes, and the unit of the data does not matter — proved

* `Verif.C277_superposition` (`Props/SartLinear.lean`): SART without limits and tolerance: the reconstruction of `α b₁ + β b₂` from `α x₁ + β x₂` is the same combination of the reconstructions, whatever the order of the projections, the masks and the relaxation.
* `Verif.C277_unit` (`Props/SartLinear.lean`): SART in another unit: data, start, limits and tolerance multiplied by `α > 0` multiply the volume by `α`. (The tolerance of SART is compared to the norm of the residual, that of the other solvers to its square.)

### C278 A limit constraint given to FISTA is the limit option — proved

* `Verif.C278_lower` (`Props/LimitOption.lean`): Lower limit: `FISTA(regularizer=Constraint_LowerLimit(l))` without a `lower_limit` returns the same volume and the same residuals (or the same error) as `FISTA()` with `lower_limit=l`, whatever the upper limit.
* `Verif.C278_upper` (`Props/LimitOption.lean`): Upper limit, provided that it is nowhere below the lower one.

### C279 The SVD regularizer leads PDHG to the minimiser of misfit plus nuclear norm — partial

* `Verif.C279_duals_partial` (`Props/VectorSvd.lean`): The duals of the singular values over any sequence of volumes start at 0, never decrease and never exceed the weight.
* `Verif.C279_push_partial` (`Props/VectorSvd.lean`): The push after a dual step for `x` has the singular vectors of `x`, with `√(k r)` times the duals as singular values: once the duals have reached the weight it is the gradient of `w √(k r)` times the nuclear norm.
* `Verif.C279_violated` (`Props/VectorSvd.lean`): The regularizer violates it: one channel of one pixel, measured directly with the value `b`, and a weight `w > |b|`. The minimiser of half the squared misfit plus `w` times the nuclear norm (the absolute value) is 0; PDHG from any start `c` with `|c| > |b|` does not converge to anything. (The duals of the singular values only ever grow: they are the sums of the singular values, whatever the signs of the relaxed volumes.)

### C280 PDHG is stable against noise and the choice of the start — proved

* `Verif.C280_start` (`Props/PdhgStability.lean`): Two PDHG runs of the same problem (any matrix, data, background, data term with a convex functional, 0/1 masks, limits, list of regularizers that stand for convex penalties, relaxation ρ in (0, 1), preconditioned step sizes) that differ only in their admissible start volumes stay close for ever: after every number of iterations the squared distance of the two volumes, weighted by the inverse of the primal step sizes, is at most `1 / (1 - ρ)` times that of the start volumes. Neither needs to converge.
* `Verif.C280_noise` (`Props/PdhgStability.lean`): The same for two data sets, for least-squares terms (weights `c`, all 1 for the unweighted one): the effect of noise on the data grows at most like the square root of the number of iterations, with every list of convex penalties; held-out pixels do not count.

### C281 PDHG settles at a known rate — proved

* `Verif.C281_settles` (`Props/PdhgRate.lean`): PDHG with the preconditioned step sizes settles: under the hypotheses of C141 and for an admissible start, there is a constant such that the squared change of the volume in each further iteration, weighted by the inverse of the primal step sizes, is at most the constant divided by the number of iterations.

### C282 SART is stable against noise and the choice of the start — proved

* `Verif.C282_sart_stable` (`Props/SartStability.lean`): Two SART runs of `n` iterations on the same projections (even weights as in C252) with the same options (relaxation in [0, 2], no tolerance; masks, limits that some volume respects) and the same order of the projections, with data `b`, `b'` and start volumes that differ only where the solution mask is not zero: in the volume's weighted norm, the results differ at most by as much as the start volumes do plus `n` times the relaxation times the sum, over the projections gone through, of the difference of the data (each pixel divided by its row sum `R`, masked pixels counting nothing). With the same data the distance never grows.

### C283 SIRT forgets its start geometrically — proved

* `Verif.C283_sirt_geometric` (`Props/SirtGeometric.lean`): If volumes that the solution mask allows are determined by their projections on the training pixels, there is a factor `q < 1` - depending on matrix, masks, limits and relaxation (strictly between 0 and 2) only - such that for any data `b`, `b'`, start volumes that differ only where the solution mask is not zero, and number of iterations `n`, in the volume's weighted norm the results differ at most by `q ^ n` times the difference of the start volumes plus the constant `relaxation / (1 - q)` times the difference of the data. With the same data, the choice of the start is forgotten geometrically; the noise amplification is bounded for any number of iterations.
* `Verif.C283_sirt_solution` (`Props/SirtGeometric.lean`): in the situation of `C283_sirt_geometric`, started at a volume that is zero where the solution mask is (as the default start is), the volumes approach an admissible volume of smallest row-normalised training misfit geometrically, with one factor `q < 1` for all data and starts.

### C284 What SIRT with regularizers converges to — partial

* `Verif.C284_sirt_regs_partial` (`Props/SirtRegs.lean`): SIRT with regularizers (l2 data term, any list of convex regularizers, limits, masks, relaxation below 2): if the smoothed problem has a solution (it has one when both limits are given), the volumes converge to one, whatever the starting volume; and whenever the volumes converge, their limit is such a solution. Missing: the limit is in general not a solution of the problem with the penalties themselves (`C284_sirt_regs_violated`).
* `Verif.C284_sirt_regs_gap` (`Props/SirtRegs.lean`): how far the limit is from the problem with the penalties themselves. If penalty `k` is `L k`-Lipschitz, no admissible volume has a (row-weighted) misfit plus penalties that is lower than that of the limit by more than `∑ (L k)² / (2 σ k)`.
* `Verif.C284_l1_lipschitz` (`Props/SirtRegs.lean`): the weighted l1 penalties are Lipschitz, whatever the transform; the constant is the Euclidean norm of the weights.
* `Verif.C284_tv_lipschitz` (`Props/SirtRegs.lean`): so is the total variation, with the weight times the root of the number of voxels.
* `Verif.C284_sirt_regs_violated` (`Props/SirtRegs.lean`): the limit is not a solution of the problem with the penalty itself. One voxel measured as 1, and the l1 penalty with weight 1: every run of at least one iteration returns 1/2, the solution is 0.

### C285 Rate of SIRT with regularizers — proved

* `Verif.C285_sirt_regs_rate` (`Props/SirtRegs.lean`): the rate. With a relaxation of at most 1 and a start that is 0 where the solution mask is, the smoothed objective after `N` iterations is above that of any admissible volume by at most its weighted squared distance to the start over `2 N` times the relaxation; and it never increases after the first iteration. The weights are the column sums plus the step sizes of the regularizers.

### C286 SIRT with regularizers is stable — proved

* `Verif.C286_sirt_regs_stable` (`Props/SirtRegs.lean`): SIRT with regularizers is stable. Two runs of `n` iterations with data `b`, `b'` and start volumes that differ only where the solution mask is not zero: in the volume's weighted norm the results differ at most by as much as the start volumes do plus `n` times the relaxation times the difference of the data in the row-normalised norm.

## 7. Axioms

* `Classical.choice`, `Quot.sound`, `propext`: the 807 theorems of the manifest not listed below.
* `Quot.sound`, `propext`: `Verif.C12_terms_in_use`, `Verif.C138_stack_violated`, `Verif.C139_ghost_tomo_shape_partial`, `Verif.C139_one_mask_violated`, `Verif.C158_channels_violated`, `Verif.C179_padding`, `Verif.C191_init_keywords_violated`, `Verif.C199_operator_shapes_violated`, `Verif.C219_shapes_partial`, `Verif.C29_pad_amount`, `Verif.C32_pool_results`, `Verif.C52_window_sizes`, `Verif.C68_self_adjoint_partial`, `Verif.C68_transpose_twice_violated`, `Verif.C79_shapes_partial`, `Verif.DataFormat.C256_axes_by_format`, `Verif.DataFormat.C257_cone_detector`, `Verif.XrfPool.C246_misuse_is_recorded`, `Verif.XrfPool.C246_pool`, `Verif.XrfPool.C246_projections`, `Verif.XrfPool.C246_with_violated`.
* `propext`: `Verif.C135_shapes_partial`, `Verif.C211_filter_names`, `Verif.C228_accepted_partial`, `Verif.C241_violated`, `Verif.C255_line_by_name_partial`, `Verif.C28_transpose`, `Verif.C35_short_rejected`, `Verif.C54_families`, `Verif.C56_small_fov_violated`, `Verif.C63_accepts_unusable_violated`, `Verif.C63_usable_partial`, `Verif.C88_fanflat_3d_violated`, `Verif.C88_other_kinds_partial`.
* no axioms: `Verif.C138_use_lstsq_partial`, `Verif.C138_use_lstsq_violated`, `Verif.C140_ghost_init_violated`, `Verif.C219_shapes_violated`, `Verif.C228_default_violated`, `Verif.C88_fanflat_scaled_violated`.
