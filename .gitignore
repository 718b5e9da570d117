.lake/
lean/.lake/
lean/build/
lean/lake-manifest.json
