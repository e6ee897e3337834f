{"C40": {"extra": ["DTW.C45_unknown_type", "DTW.C48_unknown_pattern"]}}